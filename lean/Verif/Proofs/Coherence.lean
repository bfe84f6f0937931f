import Verif.Model.Coherence
import Verif.Props.Unify

/-!
The overlap check of trait implementations never misses a common application.
-/
namespace Ferlium.Coherence
open Ferlium.Unify

/-- The type has no variables. -/
def Closed (t : Ty) : Prop := ∀ v, t.contains v = false

/-- The types `inputs` have the trait with the given outputs: an implementation gives it, for some choice of its variables
for which its constraints hold, or it is derived.  Constraints of other kinds are taken as true. -/
inductive Holds (impls : List Impl) (derived : Nat → List Ty → List Ty → Prop) : Nat → List Ty → List Ty → Prop
  | given (i : Impl) (ρ : Nat → Ty) : i ∈ impls → (∀ v, Closed (ρ v)) →
      (∀ t ins outs, .haveTrait t ins outs ∈ i.constraints →
        Holds impls derived t (ins.map (·.subst ρ)) (outs.map (·.subst ρ))) →
      Holds impls derived i.trait (i.inputs.map (·.subst ρ)) (i.outputs.map (·.subst ρ))
  | derived {t ins outs} : derived t ins outs → Holds impls derived t ins outs

/-- The implementation applies to these types. -/
def Applies (impls : List Impl) (derived : Nat → List Ty → List Ty → Prop) (i : Impl) (ins outs : List Ty) : Prop :=
  ∃ ρ : Nat → Ty, (∀ v, Closed (ρ v)) ∧ ins = i.inputs.map (·.subst ρ) ∧ outs = i.outputs.map (·.subst ρ) ∧
    ∀ t cins couts, .haveTrait t cins couts ∈ i.constraints →
      Holds impls derived t (cins.map (·.subst ρ)) (couts.map (·.subst ρ))

/-- A type over the variables `0 .. n`, made as `S` says. -/
def TyOk (S : Head → List (Option Nat) → Prop) (n : Nat) (t : Ty) : Prop := (∀ v, t.contains v = true → v < n) ∧ t.Sorted S

/-- The same for a constraint. -/
def ConstraintOk (S : Head → List (Option Nat) → Prop) (n : Nat) : Constraint → Prop
  | .haveTrait _ ins outs => (∀ t ∈ ins, TyOk S n t) ∧ (∀ t ∈ outs, TyOk S n t)
  | .other => True

/-- The same for an implementation; one without variables has no constraints. -/
structure ImplOk (S : Head → List (Option Nat) → Prop) (i : Impl) : Prop where
  inputs : ∀ t ∈ i.inputs, TyOk S i.vars t
  outputs : ∀ t ∈ i.outputs, TyOk S i.vars t
  constraints : ∀ c ∈ i.constraints, ConstraintOk S i.vars c
  concrete : i.vars = 0 → i.constraints = []

/-- What is assumed of the rest of the compiler: the solver finds what holds, and only what has derivers is derived. -/
structure Trusted (env : Env) (derived : Nat → List Ty → List Ty → Prop) : Prop where
  solver : ∀ t ins outs, Holds env.impls derived t ins outs → env.solve t ins = some outs
  derivers : ∀ t ins outs, derived t ins outs → env.hasDerivers t = true ∧
    ∀ decl args, ins = [.node (.named decl) args] → t = env.value → env.noDerive decl = false

variable {S : Head → List (Option Nat) → Prop} {env : Env} {derived : Nat → List Ty → List Ty → Prop}

mutual

theorem isConstant_closed : ∀ t : Ty, t.isConstant = true → Closed t
  | .never, _ => fun v => by rw [Ty.contains]
  | .var _, h => by rw [Ty.isConstant] at h; cases h
  | .node _ args, h => fun v => by
    rw [Ty.isConstant] at h
    rw [Ty.contains]
    exact isConstant_closedArgs args h v

theorem isConstant_closedArgs : ∀ a : Args, a.isConstant = true → ∀ v, a.contains v = false
  | .nil, _ => fun v => by rw [Args.contains]
  | .cons _ t rest, h => fun v => by
    rw [Args.isConstant, Bool.and_eq_true] at h
    rw [Args.contains, isConstant_closed t h.1 v, isConstant_closedArgs rest h.2 v]
    rfl

end

theorem Closed.subst {t : Ty} (h : Closed t) (ρ : Nat → Ty) : t.subst ρ = t := by
  conv_rhs => rw [← Ty.subst_var t]
  exact Ty.subst_congr _ fun v hv => by rw [h v] at hv; cases hv

mutual

theorem shift_subst (k : Nat) (ρ : Nat → Ty) : ∀ t : Ty, (t.shift k).subst ρ = t.subst (fun v => ρ (k + v))
  | .never => by rw [Ty.shift, Ty.subst, Ty.subst]
  | .var _ => by rw [Ty.shift, Ty.subst, Ty.subst]
  | .node _ args => by rw [Ty.shift, Ty.subst, Ty.subst, shift_substArgs k ρ args]

theorem shift_substArgs (k : Nat) (ρ : Nat → Ty) : ∀ a : Args, (a.shift k).subst ρ = a.subst (fun v => ρ (k + v))
  | .nil => by rw [Args.shift, Args.subst, Args.subst]
  | .cons _ t rest => by rw [Args.shift, Args.subst, Args.subst, shift_subst k ρ t, shift_substArgs k ρ rest]

end

mutual

theorem shift_eq (k : Nat) : ∀ t : Ty, t.shift k = t.subst (fun v => .var (k + v))
  | .never => by rw [Ty.shift, Ty.subst]
  | .var _ => by rw [Ty.shift, Ty.subst]
  | .node _ args => by rw [Ty.shift, Ty.subst, shift_eqArgs k args]

theorem shift_eqArgs (k : Nat) : ∀ a : Args, a.shift k = a.subst (fun v => .var (k + v))
  | .nil => by rw [Args.shift, Args.subst]
  | .cons _ t rest => by rw [Args.shift, Args.subst, shift_eq k t, shift_eqArgs k rest]

end

theorem TyOk.shift {k n : Nat} {t : Ty} (h : TyOk S n t) : TyOk S (k + n) (t.shift k) := by
  rw [shift_eq]
  refine ⟨fun v hv => ?_, Ty.sorted_subst t h.2 fun v _ => by rw [Ty.Sorted]; trivial⟩
  rw [Ty.contains_subst] at hv
  obtain ⟨w, hw, hv⟩ := hv
  have := h.1 w hw
  simp only [Ty.contains, beq_iff_eq] at hv
  omega

theorem TyOk.mono {m n : Nat} {t : Ty} (h : TyOk S m t) (hmn : m ≤ n) : TyOk S n t :=
  ⟨fun v hv => lt_of_lt_of_le (h.1 v hv) hmn, h.2⟩

theorem ConstraintOk.mono {m n : Nat} {c : Constraint} (h : ConstraintOk S m c) (hmn : m ≤ n) : ConstraintOk S n c := by
  cases c with
  | other => trivial
  | haveTrait t ins outs => exact ⟨fun t ht => (h.1 t ht).mono hmn, fun t ht => (h.2 t ht).mono hmn⟩

theorem ConstraintOk.shift {k n : Nat} {c : Constraint} (h : ConstraintOk S n c) : ConstraintOk S (k + n) (c.shift k) := by
  cases c with
  | other => trivial
  | haveTrait t ins outs =>
    rw [Constraint.shift]
    refine ⟨fun t ht => ?_, fun t ht => ?_⟩
    · obtain ⟨u, hu, rfl⟩ := List.mem_map.1 ht
      exact (h.1 u hu).shift
    · obtain ⟨u, hu, rfl⟩ := List.mem_map.1 ht
      exact (h.2 u hu).shift

theorem mapM_normalize {tab : Table} {θ : Nat → Ty} (h : Tri tab θ) : ∀ l : List Ty, (∀ t ∈ l, TyOk S tab.length t) →
    l.mapM (normalize tab) = some (l.map (·.subst θ))
  | [], _ => rfl
  | t :: l, hl => by
    rw [List.mapM_cons, h.normalize (hl t (by simp)).1, mapM_normalize h l fun u hu => hl u (by simp [hu])]
    rfl

theorem TyOk.norm {tab : Table} {θ : Nat → Ty} (h : Tri tab θ) (hs : SortedTable S tab) {t : Ty} (ht : TyOk S tab.length t) :
    TyOk S tab.length (t.subst θ) :=
  ⟨h.inTable_subst ht.1, Ty.sorted_subst t ht.2 fun v _ => h.sorted hs v⟩

theorem map_agree {tab : Table} {θ ρ : Nat → Ty} (h : Tri tab θ) (hρ : Respects tab ρ) (l : List Ty) :
    (l.map (·.subst θ)).map (·.subst ρ) = l.map (·.subst ρ) := by
  rw [List.map_map]
  exact List.map_congr_left fun t _ => h.agree hρ t

theorem map_closed (l : List Ty) (h : l.all (·.isConstant) = true) (ρ : Nat → Ty) : l.map (·.subst ρ) = l := by
  rw [List.all_eq_true] at h
  conv_rhs => rw [← List.map_id l]
  exact List.map_congr_left fun t ht => (isConstant_closed t (h t ht)).subst ρ

/-- Equal lists under an assignment make all pairs equal under it. -/
theorem zip_goal {ρ : Nat → Ty} : ∀ l l' : List Ty, l.map (·.subst ρ) = l'.map (·.subst ρ) →
    ∀ e ∈ l.zip l', e.1.subst ρ = e.2.subst ρ
  | [], _, _, e, he => by simp at he
  | _ :: _, [], _, e, he => by simp at he
  | t :: l, t' :: l', h, e, he => by
    simp only [List.map_cons, List.cons.injEq] at h
    rw [List.zip_cons_cons, List.mem_cons] at he
    rcases he with rfl | he
    · exact h.1
    · exact zip_goal l l' h.2 e he

theorem solve_same (pick : Nat → Nat → Bool) (tab : Table) : ∀ l : List Ty, Unify.solve pick tab (l.zip l) = some (.ok tab)
  | [] => rfl
  | t :: l => by
    rw [List.zip_cons_cons, Unify.solve, Unify.unify, if_pos rfl]
    exact solve_same pick tab l

theorem firstOther_disjoint {f : Impl → Option Answer} : ∀ {l : List Impl}, firstOther f l = some .disjoint →
    ∀ i ∈ l, f i = some .disjoint
  | [], _, i, hi => by cases hi
  | j :: l, h, i, hi => by
    rw [firstOther] at h
    cases hj : f j with
    | none => rw [hj] at h; cases h
    | some a =>
      rw [hj] at h
      cases a with
      | overlap => cases h
      | panic => cases h
      | disjoint =>
        rcases List.mem_cons.1 hi with rfl | hi
        · exact hj
        · exact firstOther_disjoint h i hi

theorem tri_append {tab : Table} {θ : Nat → Ty} (h : Tri tab θ) (n : Nat) : Tri (tab ++ fresh n) θ := by
  have hget : ∀ (v : Nat) (t : Ty), (tab ++ fresh n)[v]? = some (some t) ↔ tab[v]? = some (some t) := by
    intro v t
    by_cases hv : v < tab.length
    · rw [List.getElem?_append_left hv]
    · rw [List.getElem?_append_right (by omega), List.getElem?_eq_none_iff.2 (by omega : tab.length ≤ v)]
      constructor
      · intro h
        unfold fresh at h
        have := List.mem_of_getElem? h
        simp at this
      · intro h; cases h
  obtain ⟨h1, h2, h3, rank, h4⟩ := h
  refine ⟨fun v t ht => h1 v t ((hget v t).1 ht), fun v hv => h2 v fun t ht => hv t ((hget v t).2 ht), fun v t ht w hw => ?_,
    rank, fun v t ht => h4 v t ((hget v t).1 ht)⟩
  rw [List.length_append]
  have := h3 v t ((hget v t).1 ht) w hw
  omega

theorem get_append {tab : Table} {n v : Nat} {t : Ty} (h : (tab ++ fresh n)[v]? = some (some t)) : tab[v]? = some (some t) := by
  by_cases hv : v < tab.length
  · rwa [List.getElem?_append_left hv] at h
  · rw [List.getElem?_append_right (by omega)] at h
    unfold fresh at h
    have := List.mem_of_getElem? h
    simp at this

theorem sorted_append {tab : Table} (h : SortedTable S tab) (n : Nat) : SortedTable S (tab ++ fresh n) :=
  fun v t ht => h v t (get_append ht)

/-- An assignment with another one for the variables from `n` on. -/
def join (n : Nat) (ρ ρ' : Nat → Ty) (v : Nat) : Ty := if v < n then ρ v else ρ' (v - n)

theorem join_old {n : Nat} {ρ ρ' : Nat → Ty} {t : Ty} (h : TyOk S n t) : t.subst (join n ρ ρ') = t.subst ρ :=
  Ty.subst_congr _ fun v hv => by rw [join, if_pos (h.1 v hv)]

theorem join_new {n : Nat} {ρ ρ' : Nat → Ty} (t : Ty) : (t.shift n).subst (join n ρ ρ') = t.subst ρ' := by
  rw [shift_subst]
  refine Ty.subst_congr _ fun v _ => ?_
  rw [join, if_neg (by omega), Nat.add_sub_cancel_left]

theorem join_respects {tab : Table} {θ ρ ρ' : Nat → Ty} (h : Tri tab θ) (hρ : Respects tab ρ) (n : Nat) :
    Respects (tab ++ fresh n) (join tab.length ρ ρ') := by
  intro v t ht
  have ht := get_append ht
  have hv : v < tab.length := by
    by_contra hc
    rw [List.getElem?_eq_none_iff.2 (by omega)] at ht
    cases ht
  rw [join, if_pos hv, hρ v t ht]
  refine Ty.subst_congr _ fun w hw => ?_
  rw [join, if_pos (h.vars v t ht w hw)]

theorem join_closed {n : Nat} {ρ ρ' : Nat → Ty} (h : ∀ v, Closed (ρ v)) (h' : ∀ v, Closed (ρ' v)) (v : Nat) :
    Closed (join n ρ ρ' v) := by
  unfold join
  split_ifs
  · exact h _
  · exact h' _

/-- Unifying the heads of an implementation and of a query of which there is a common instance. -/
theorem unifyHeads_ok (hS : FixedArity S) {tab : Table} {θ ρ : Nat → Ty} (h : Tri tab θ) (hs : SortedTable S tab)
    (hρ : Respects tab ρ) {a a' b b' : List Ty} (ha : ∀ t ∈ a, TyOk S tab.length t) (ha' : ∀ t ∈ a', TyOk S tab.length t)
    (hb : ∀ t ∈ b, TyOk S tab.length t) (hb' : ∀ t ∈ b', TyOk S tab.length t) (e : a.map (·.subst ρ) = a'.map (·.subst ρ))
    (e' : b.map (·.subst ρ) = b'.map (·.subst ρ)) :
    ∃ tab' θ', unifyHeads env tab a a' b b' = some (.ok tab') ∧ tab'.length = tab.length ∧ Tri tab' θ' ∧ SortedTable S tab' ∧
      Respects tab' ρ := by
  have hg : ∀ x ∈ a.zip a' ++ b.zip b', x.1.subst ρ = x.2.subst ρ := by
    intro x hx
    rcases List.mem_append.1 hx with hx | hx
    · exact zip_goal _ _ e x hx
    · exact zip_goal _ _ e' x hx
  obtain ⟨r, hr, hp⟩ := solve_spec (pick := env.pick) hS (a.zip a' ++ b.zip b') tab θ h hs (by
    intro x hx
    rcases List.mem_append.1 hx with hx | hx
    · have hm := List.of_mem_zip hx
      exact ⟨(ha _ hm.1).1, (ha' _ hm.2).1, (ha _ hm.1).2, (ha' _ hm.2).2⟩
    · have hm := List.of_mem_zip hx
      exact ⟨(hb _ hm.1).1, (hb' _ hm.2).1, (hb _ hm.1).2, (hb' _ hm.2).2⟩)
  cases r with
  | error err => exact absurd hg (hp ρ hρ)
  | ok tab' =>
    obtain ⟨p1, ⟨θ', p2⟩, p3, _, _, p6⟩ := hp
    exact ⟨tab', θ', hr, p1, p2, p3, p6 ρ hρ hg⟩

theorem disabled_instance {t : Nat} {ins : List Ty} {ρ : Nat → Ty} (h : valueDeriverDisabled env t ins = true) :
    ∃ decl args, ins.map (·.subst ρ) = [.node (.named decl) args] ∧ t = env.value ∧ env.noDerive decl = true := by
  unfold valueDeriverDisabled at h
  split at h
  · rename_i decl args
    rw [Bool.and_eq_true, beq_iff_eq] at h
    exact ⟨decl, args.subst ρ, by rw [List.map_cons, List.map_nil, Ty.subst], h.1, h.2⟩
  · cases h

/-- If the search says that the constraints cannot hold together, no assignment makes them hold. -/
theorem maySatisfy_sound (hS : FixedArity S) (he : Trusted env derived) (hi : ∀ i ∈ env.impls, ImplOk S i) :
    ∀ (fuel : Nat) (tab : Table) (θ : Nat → Ty) (pending : List Constraint) (stack : List Query), Tri tab θ → SortedTable S tab →
      (∀ c ∈ pending, ConstraintOk S tab.length c) → maySatisfy env fuel tab pending stack = some .disjoint →
      ∀ ρ : Nat → Ty, Respects tab ρ → (∀ v, Closed (ρ v)) →
        ¬ ∀ t ins outs, .haveTrait t ins outs ∈ pending →
          Holds env.impls derived t (ins.map (·.subst ρ)) (outs.map (·.subst ρ))
  | 0, _, _, _, _, _, _, _, h, _, _, _ => by rw [maySatisfy] at h; cases h
  | fuel + 1, _, _, [], _, _, _, _, h, _, _, _ => by rw [maySatisfy] at h; cases h
  | fuel + 1, _, _, .other :: _, _, _, _, _, h, _, _, _ => by rw [maySatisfy] at h; cases h
  | fuel + 1, tab, θ, .haveTrait t ins outs :: pending, stack, ht, hs, hc, h, ρ, hρ, hcl => by
    intro hall
    have ih := maySatisfy_sound hS he hi fuel
    have hpend : ∀ c ∈ pending, ConstraintOk S tab.length c := fun c hm => hc c (by simp [hm])
    have hok := hc _ (List.mem_cons_self ..)
    have hgoal := hall t ins outs (by simp)
    have hrest : ∀ t ins outs, .haveTrait t ins outs ∈ pending →
        Holds env.impls derived t (ins.map (·.subst ρ)) (outs.map (·.subst ρ)) := fun t ins outs hm => hall t ins outs (by simp [hm])
    rw [maySatisfy, mapM_normalize ht ins hok.1, mapM_normalize ht outs hok.2] at h
    rw [← map_agree ht hρ ins, ← map_agree ht hρ outs] at hgoal
    have hin : ∀ u ∈ ins.map (·.subst θ), TyOk S tab.length u := by
      intro u hu
      obtain ⟨w, hw, rfl⟩ := List.mem_map.1 hu
      exact (hok.1 w hw).norm ht hs
    have hout : ∀ u ∈ outs.map (·.subst θ), TyOk S tab.length u := by
      intro u hu
      obtain ⟨w, hw, rfl⟩ := List.mem_map.1 hu
      exact (hok.2 w hw).norm ht hs
    generalize ins.map (·.subst θ) = ins' at h hgoal hin
    generalize outs.map (·.subst θ) = outs' at h hgoal hout
    simp only at h
    split at h
    · rename_i hconst
      rw [Bool.and_eq_true] at hconst
      rw [map_closed _ hconst.1, map_closed _ hconst.2] at hgoal
      rw [he.solver _ _ _ hgoal] at h
      simp only [solve_same] at h
      exact ih tab θ pending stack ht hs hpend h ρ hρ hcl hrest
    · split at h
      · exact ih tab θ pending stack ht hs hpend h ρ hρ hcl hrest
      · split at h
        · cases h
        · split at h
          · rename_i hfirst
            generalize hd : ins'.map (·.subst ρ) = gins at hgoal
            generalize hd' : outs'.map (·.subst ρ) = gouts at hgoal
            cases hgoal with
            | derived hder =>
              obtain ⟨d1, d2⟩ := he.derivers _ _ _ hder
              have hen : valueDeriverDisabled env t ins' = false := by
                by_contra hcon
                rw [Bool.not_eq_false] at hcon
                obtain ⟨decl, args, e1, e2, e3⟩ := disabled_instance (ρ := ρ) hcon
                rw [d2 decl args (hd ▸ e1) e2] at e3
                cases e3
              rw [hen, d1] at h
              exact ih tab θ pending stack ht hs hpend h ρ hρ hcl hrest
            | given i ρi hmem hcli hci =>
              have hfi := firstOther_disjoint hfirst i (by simp [hmem])
              have hiok := hi i hmem
              split at hfi
              · rename_i hv0
                have hcl0 : ∀ u, TyOk S i.vars u → Closed u := fun u hu v => by
                  by_contra hcon
                  rw [Bool.not_eq_false] at hcon
                  have := hu.1 v hcon
                  omega
                have hsame : ∀ l : List Ty, (∀ u ∈ l, TyOk S i.vars u) → l.map (·.subst ρ) = l.map (·.subst ρi) := fun l hl =>
                  List.map_congr_left fun u hu => by rw [(hcl0 u (hl u hu)).subst, (hcl0 u (hl u hu)).subst]
                obtain ⟨tab', θ', q1, q2, q3, q4, q5⟩ := unifyHeads_ok (env := env) hS ht hs hρ
                  (fun u hu => (hiok.inputs u hu).mono (by omega)) hin (fun u hu => (hiok.outputs u hu).mono (by omega)) hout
                  (by rw [hsame _ hiok.inputs, hd]) (by rw [hsame _ hiok.outputs, hd'])
                rw [q1] at hfi
                simp only at hfi
                exact ih tab' θ' pending _ q3 q4 (by rw [q2]; exact hpend) hfi ρ q5 hcl hrest
              · have hlen : (tab ++ fresh i.vars).length = tab.length + i.vars := by
                  rw [List.length_append, fresh, List.length_replicate]
                have hρ' := join_respects ht hρ i.vars (ρ' := ρi)
                have hold : ∀ l : List Ty, (∀ u ∈ l, TyOk S tab.length u) →
                    l.map (·.subst (join tab.length ρ ρi)) = l.map (·.subst ρ) := fun l hl =>
                  List.map_congr_left fun u hu => join_old (hl u hu)
                have hnew : ∀ l : List Ty, (l.map (·.shift tab.length)).map (·.subst (join tab.length ρ ρi)) =
                    l.map (·.subst ρi) := fun l => by
                  rw [List.map_map]
                  exact List.map_congr_left fun u _ => join_new u
                have hsh : ∀ l : List Ty, (∀ u ∈ l, TyOk S i.vars u) → ∀ u ∈ l.map (·.shift tab.length),
                    TyOk S (tab ++ fresh i.vars).length u := by
                  intro l hl u hu
                  obtain ⟨w, hw, rfl⟩ := List.mem_map.1 hu
                  rw [hlen]
                  exact (hl w hw).shift
                obtain ⟨tab', θ', q1, q2, q3, q4, q5⟩ := unifyHeads_ok (env := env) hS (tri_append ht i.vars)
                  (sorted_append hs i.vars) hρ' (hsh _ hiok.inputs) (fun u hu => (hin u hu).mono (by omega))
                  (hsh _ hiok.outputs) (fun u hu => (hout u hu).mono (by omega))
                  (by rw [hnew, hold _ hin, hd]) (by rw [hnew, hold _ hout, hd'])
                rw [q1] at hfi
                simp only at hfi
                refine ih tab' θ' _ _ q3 q4 ?_ hfi _ q5 (join_closed hcl hcli) ?_
                · intro c hm
                  rw [q2, hlen]
                  rw [List.mem_append, List.mem_reverse] at hm
                  rcases hm with hm | hm
                  · obtain ⟨c', hm', rfl⟩ := List.mem_map.1 hm
                    exact (hiok.constraints c' hm').shift
                  · exact (hpend c hm).mono (by omega)
                · intro t2 ins2 outs2 hm
                  rw [List.mem_append, List.mem_reverse] at hm
                  rcases hm with hm | hm
                  · obtain ⟨c', hm', hc'⟩ := List.mem_map.1 hm
                    cases c' with
                    | other => rw [Constraint.shift] at hc'; cases hc'
                    | haveTrait t3 ins3 outs3 =>
                      rw [Constraint.shift] at hc'
                      cases hc'
                      rw [hnew, hnew]
                      exact hci _ _ _ hm'
                  · rw [hold _ (hpend _ hm).1, hold _ (hpend _ hm).2]
                    exact hrest _ _ _ hm
          · rename_i hx
            exact absurd h hx

/-- If the check says that two implementations do not overlap, no application is common to them. -/
theorem blanketOverlap_sound (hS : FixedArity S) (he : Trusted env derived) (hi : ∀ i ∈ env.impls, ImplOk S i) (fuel : Nat)
    {a b : Impl} (ha : ImplOk S a) (hb : ImplOk S b) (h : blanketOverlap env fuel a b = some .disjoint) (ins outs : List Ty) :
    ¬ (Applies env.impls derived a ins outs ∧ Applies env.impls derived b ins outs) := by
  rintro ⟨⟨ρ, hcl, e1, e2, e3⟩, ρ', hcl', e1', e2', e3'⟩
  unfold blanketOverlap at h
  rw [if_neg (by
    rw [not_not]
    have := congrArg List.length (e1.symm.trans e1')
    simpa using this)] at h
  have hnew : ∀ l : List Ty, (l.map (·.shift a.vars)).map (·.subst (join a.vars ρ ρ')) = l.map (·.subst ρ') := fun l => by
    rw [List.map_map]
    exact List.map_congr_left fun u _ => join_new u
  have hold : ∀ l : List Ty, (∀ u ∈ l, TyOk S a.vars u) → l.map (·.subst (join a.vars ρ ρ')) = l.map (·.subst ρ) := fun l hl =>
    List.map_congr_left fun u hu => join_old (hl u hu)
  have hsh : ∀ l : List Ty, (∀ u ∈ l, TyOk S b.vars u) → ∀ u ∈ l.map (·.shift a.vars), TyOk S (fresh (a.vars + b.vars)).length u := by
    intro l hl u hu
    obtain ⟨w, hw, rfl⟩ := List.mem_map.1 hu
    rw [fresh, List.length_replicate]
    exact (hl w hw).shift
  have hlen : a.vars ≤ (fresh (a.vars + b.vars)).length := by rw [fresh, List.length_replicate]; omega
  obtain ⟨tab, θ, q1, q2, q3, q4, q5⟩ := unifyHeads_ok (env := env) hS (tri_fresh (a.vars + b.vars)) (sorted_fresh (S := S) _)
    (ρ := join a.vars ρ ρ') (fun v t ht => by
      unfold fresh at ht
      have := List.mem_of_getElem? ht
      simp at this)
    (fun u hu => (ha.inputs u hu).mono hlen) (hsh _ hb.inputs) (fun u hu => (ha.outputs u hu).mono hlen) (hsh _ hb.outputs)
    (by rw [hold _ ha.inputs, hnew, ← e1, ← e1']) (by rw [hold _ ha.outputs, hnew, ← e2, ← e2'])
  rw [q1] at h
  simp only at h
  refine maySatisfy_sound hS he hi fuel tab θ _ _ q3 q4 ?_ h _ q5 (join_closed hcl hcl') ?_
  · intro c hm
    rw [List.mem_reverse, List.mem_append] at hm
    rw [q2]
    rcases hm with hm | hm
    · exact (ha.constraints c hm).mono hlen
    · obtain ⟨c', hm', rfl⟩ := List.mem_map.1 hm
      rw [fresh, List.length_replicate]
      exact (hb.constraints c' hm').shift
  · intro t2 ins2 outs2 hm
    rw [List.mem_reverse, List.mem_append] at hm
    rcases hm with hm | hm
    · rw [hold _ (ha.constraints _ hm).1, hold _ (ha.constraints _ hm).2]
      exact e3 _ _ _ hm
    · obtain ⟨c', hm', hc'⟩ := List.mem_map.1 hm
      cases c' with
      | other => rw [Constraint.shift] at hc'; cases hc'
      | haveTrait t3 ins3 outs3 =>
        rw [Constraint.shift] at hc'
        cases hc'
        rw [hnew, hnew]
        exact e3' _ _ _ hm'

theorem implsOverlap_sound (hS : FixedArity S) (he : Trusted env derived) (hi : ∀ i ∈ env.impls, ImplOk S i) (fuel : Nat)
    {a b : Impl} (ha : ImplOk S a) (hb : ImplOk S b) (h : implsOverlap env fuel a b = some .disjoint) (ins outs : List Ty) :
    ¬ (Applies env.impls derived a ins outs ∧ Applies env.impls derived b ins outs) := by
  unfold implsOverlap at h
  split at h
  · rename_i hv
    rintro ⟨⟨ρ, _, e1, _, _⟩, ρ', _, e1', _, _⟩
    have hcl0 : ∀ {n u}, n = 0 → TyOk S n u → Closed u := fun hn hu v => by
      by_contra hcon
      rw [Bool.not_eq_false] at hcon
      have := hu.1 v hcon
      omega
    have h1 : a.inputs.map (·.subst ρ) = a.inputs := by
      conv_rhs => rw [← List.map_id a.inputs]
      exact List.map_congr_left fun u hu => (hcl0 hv.1 (ha.inputs u hu)).subst ρ
    have h2 : b.inputs.map (·.subst ρ') = b.inputs := by
      conv_rhs => rw [← List.map_id b.inputs]
      exact List.map_congr_left fun u hu => (hcl0 hv.2 (hb.inputs u hu)).subst ρ'
    rw [if_pos (by rw [← h1, ← h2, ← e1, ← e1'])] at h
    cases h
  · exact blanketOverlap_sound hS he hi fuel ha hb h ins outs

end Ferlium.Coherence
