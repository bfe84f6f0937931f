import Verif.Proofs.Unify

/-!
Unification of types: the main induction.
-/
namespace Ferlium.Unify

/-- The names of the parts. -/
def Args.names : Args → List (Option Nat)
  | .nil => []
  | .cons name _ rest => name :: rest.names

mutual

/-- Every type in the type has parts allowed by `S`. -/
def Ty.Sorted (S : Head → List (Option Nat) → Prop) : Ty → Prop
  | .never => True
  | .var _ => True
  | .node h args => S h args.names ∧ args.Sorted S

/-- The same for the parts. -/
def Args.Sorted (S : Head → List (Option Nat) → Prop) : Args → Prop
  | .nil => True
  | .cons _ t rest => t.Sorted S ∧ rest.Sorted S

end

mutual

/-- The two types agree as far as unification compares them: the type `never` agrees with every type, and a record agrees
with every record which begins with its fields. -/
inductive Agree : Ty → Ty → Prop
  | left (t) : Agree .never t
  | right (t) : Agree t .never
  | var (v) : Agree (.var v) (.var v)
  | node {h a b} : (checksLength h = true → a.length = b.length) → AgreeArgs h a b → Agree (.node h a) (.node h b)

/-- The same for the parts. -/
inductive AgreeArgs : Head → Args → Args → Prop
  | nil {h} (b) : AgreeArgs h .nil b
  | nil' {h} (a) : AgreeArgs h a .nil
  | cons {h n n' t t' r r'} : (checksNames h = true → n = n') → Agree t t' → AgreeArgs h r r' →
      AgreeArgs h (.cons n t r) (.cons n' t' r')

end

mutual

theorem Agree.refl : ∀ t : Ty, Agree t t
  | .never => .left _
  | .var v => .var v
  | .node _ args => .node (fun _ => rfl) (AgreeArgs.refl args)

theorem AgreeArgs.refl {h : Head} : ∀ a : Args, AgreeArgs h a a
  | .nil => .nil _
  | .cons _ t rest => .cons (fun _ => rfl) (Agree.refl t) (AgreeArgs.refl rest)

end

mutual

theorem Agree.symm : ∀ {t t' : Ty}, Agree t t' → Agree t' t
  | _, _, .left t => .right t
  | _, _, .right t => .left t
  | _, _, .var v => .var v
  | _, _, .node h1 h2 => .node (fun h => (h1 h).symm) (AgreeArgs.symm h2)

theorem AgreeArgs.symm {h : Head} : ∀ {a b : Args}, AgreeArgs h a b → AgreeArgs h b a
  | _, _, .nil b => .nil' b
  | _, _, .nil' a => .nil a
  | _, _, .cons h1 h2 h3 => .cons (fun h => (h1 h).symm) (Agree.symm h2) (AgreeArgs.symm h3)

end

/-- The parts of a type are fixed in number where the code relies on it. -/
def FixedArity (S : Head → List (Option Nat) → Prop) : Prop :=
  ∀ k ns ms, S (.named k) ns → S (.named k) ms → ns.length = ms.length

theorem Args.length_names : ∀ a : Args, a.names.length = a.length
  | .nil => rfl
  | .cons _ _ rest => by rw [Args.names, Args.length, List.length_cons, Args.length_names rest]

theorem Args.names_subst {ρ : Nat → Ty} : ∀ a : Args, (a.subst ρ).names = a.names
  | .nil => by rw [Args.subst]
  | .cons _ _ rest => by rw [Args.subst, Args.names, Args.names, Args.names_subst rest]

variable {S : Head → List (Option Nat) → Prop} {tab : Table} {θ : Nat → Ty}

mutual

theorem Ty.sorted_subst {ρ : Nat → Ty} : ∀ t : Ty, t.Sorted S → (∀ v, t.contains v = true → (ρ v).Sorted S) →
    (t.subst ρ).Sorted S
  | .never, _, _ => by simp [Ty.subst, Ty.Sorted]
  | .var v, _, h => by simpa [Ty.subst] using h v (by simp [Ty.contains])
  | .node k args, h, hρ => by
    rw [Ty.Sorted] at h
    rw [Ty.subst, Ty.Sorted, Args.names_subst]
    exact ⟨h.1, Args.sorted_subst args h.2 fun v hv => hρ v (by simpa [Ty.contains] using hv)⟩

theorem Args.sorted_subst {ρ : Nat → Ty} : ∀ a : Args, a.Sorted S → (∀ v, a.contains v = true → (ρ v).Sorted S) →
    (a.subst ρ).Sorted S
  | .nil, _, _ => by simp [Args.subst, Args.Sorted]
  | .cons n t rest, h, hρ => by
    rw [Args.Sorted] at h
    rw [Args.subst, Args.Sorted]
    exact ⟨Ty.sorted_subst t h.1 fun v hv => hρ v (by simp [Args.contains, hv]),
      Args.sorted_subst rest h.2 fun v hv => hρ v (by simp [Args.contains, hv])⟩

end

/-- Every type in the table is sorted. -/
def SortedTable (S : Head → List (Option Nat) → Prop) (tab : Table) : Prop := ∀ (v : Nat) t, tab[v]? = some (some t) → t.Sorted S

theorem Tri.sorted (h : Tri tab θ) (hs : SortedTable S tab) (v : Nat) : (θ v).Sorted S := by
  obtain ⟨rank, hr⟩ := h.rank
  suffices H : ∀ k v, rank v ≤ k → (θ v).Sorted S from H _ v le_rfl
  intro k
  induction k using Nat.strong_induction_on with
  | _ k ih =>
    intro v hk
    by_cases hb : ∃ t, tab[v]? = some (some t)
    · obtain ⟨t, ht⟩ := hb
      rw [h.bound v t ht]
      refine Ty.sorted_subst t (hs v t ht) fun w hw => ?_
      have := hr v t ht w hw
      exact ih (rank w) (by omega) w le_rfl
    · push Not at hb
      rw [h.free v hb, Ty.Sorted]
      trivial

/-- The number of variables without value. -/
def unbound (tab : Table) : Nat := tab.count none

theorem unbound_set {v : Nat} {t : Ty} (h : tab[v]? = some none) : unbound (tab.set v (some t)) < unbound tab := by
  unfold unbound
  obtain ⟨hi, he⟩ := List.getElem?_eq_some_iff.1 h
  have := List.count_set (a := some t) (b := (none : Option Ty)) hi
  have h0 : 0 < tab.count none := List.count_pos_iff.2 (by rw [← he]; exact List.getElem_mem _)
  have h1 : (if (tab[v] == none) = true then 1 else 0) = 1 := by rw [he]; rfl
  have h2 : (if (some t == (none : Option Ty)) = true then 1 else 0) = 0 := rfl
  rw [this, h1, h2]
  omega

/-- What a result of unification means: `goal` is what unification is to achieve, `weak` what it ensures. -/
def Post (S : Head → List (Option Nat) → Prop) (tab : Table) (goal weak : (Nat → Ty) → Prop) : Result → Prop
  | .ok tab' => tab'.length = tab.length ∧ (∃ θ', Tri tab' θ') ∧ SortedTable S tab' ∧ (tab' = tab ∨ unbound tab' < unbound tab) ∧
      (∀ ρ, Respects tab' ρ → Respects tab ρ ∧ weak ρ) ∧ (∀ ρ, Respects tab ρ → goal ρ → Respects tab' ρ)
  | .error _ => ∀ ρ, Respects tab ρ → ¬ goal ρ

theorem Post.same {goal weak : (Nat → Ty) → Prop} (h : Tri tab θ) (hs : SortedTable S tab) (hw : ∀ ρ, Respects tab ρ → weak ρ) :
    Post S tab goal weak (.ok tab) :=
  ⟨rfl, ⟨θ, h⟩, hs, .inl rfl, fun ρ hρ => ⟨hρ, hw ρ hρ⟩, fun _ hρ _ => hρ⟩

theorem Post.imp {goal weak goal' weak' : (Nat → Ty) → Prop} {r : Result} (h : Post S tab goal weak r)
    (hg : ∀ ρ, Respects tab ρ → goal' ρ → goal ρ) (hw : ∀ ρ, Respects tab ρ → weak ρ → weak' ρ) : Post S tab goal' weak' r := by
  cases r with
  | ok tab' =>
    obtain ⟨h1, h2, h3, h4, h5, h6⟩ := h
    exact ⟨h1, h2, h3, h4, fun ρ hρ => ⟨(h5 ρ hρ).1, hw ρ (h5 ρ hρ).1 (h5 ρ hρ).2⟩, fun ρ hρ hg' => h6 ρ hρ (hg ρ hρ hg')⟩
  | error e => exact fun ρ hρ hg' => h ρ hρ (hg ρ hρ hg')

/-- A variable and a type, both in normal form. -/
theorem bind_spec (h : Tri tab θ) (hs : SortedTable S tab) {v : Nat} {t : Ty} (hv : θ v = .var v) (hvl : v < tab.length)
    (ht : InTable tab t) (hts : t.Sorted S) (hfix : t.subst θ = t) (hc : t.contains v = false) :
    ∃ tab', bind tab v t = some tab' ∧
      Post S tab (fun ρ => ρ v = t.subst ρ) (fun ρ => ρ v = t.subst ρ) (.ok tab') := by
  have hn : tab[v]? = some none := by
    cases hg : tab[v]? with
    | none => rw [List.getElem?_eq_none_iff] at hg; omega
    | some o =>
      cases o with
      | none => rfl
      | some u =>
        exfalso
        have := h.fixed v v (by rw [hv]; simp [Ty.contains]) u
        exact this hg
  have hself : (tab.set v (some t))[v]? = some (some t) := List.getElem?_set_self hvl
  refine ⟨tab.set v (some t), by rw [bind, hn], by simp, ⟨_, h.bind hn ht hfix hc⟩, ?_, .inr (unbound_set hn), ?_, ?_⟩
  · intro w s hw
    by_cases hwv : w = v
    · subst hwv
      rw [hself] at hw
      cases hw
      exact hts
    · rw [List.getElem?_set_ne (Ne.symm hwv)] at hw
      exact hs w s hw
  · intro ρ hρ
    refine ⟨fun w s hw => hρ w s ?_, hρ v t hself⟩
    rw [List.getElem?_set_ne]
    · exact hw
    · rintro rfl
      rw [hn] at hw
      cases hw
  · intro ρ hρ hg w s hw
    by_cases hwv : w = v
    · subst hwv
      rw [hself] at hw
      cases hw
      exact hg
    · rw [List.getElem?_set_ne (Ne.symm hwv)] at hw
      exact hρ w s hw

/-- `unifyVariable` on normal forms. -/
theorem unifyVariable_spec (h : Tri tab θ) (hs : SortedTable S tab) {v : Nat} {t : Ty} (hv : θ v = .var v) (hvl : v < tab.length)
    (ht : InTable tab t) (hts : t.Sorted S) (hfix : t.subst θ = t) (hne : t ≠ .var v) :
    ∃ r, unifyVariable tab v t = some r ∧
      Post S tab (fun ρ => ρ v = t.subst ρ) (fun ρ => ρ v = t.subst ρ) r := by
  unfold unifyVariable
  cases hc : t.contains v with
  | true =>
    refine ⟨_, rfl, fun ρ hρ hg => ?_⟩
    cases t with
    | never => simp [Ty.contains] at hc
    | var w =>
      simp [Ty.contains] at hc
      exact hne (by rw [hc])
    | node k args =>
      rw [Ty.contains] at hc
      have := Args.size_contains (ρ := ρ) args hc
      rw [hg, Ty.subst, Ty.size] at this
      omega
  | false =>
    obtain ⟨tab', h1, h2⟩ := bind_spec h hs hv hvl ht hts hfix hc
    exact ⟨.ok tab', by simp [h1], h2⟩

/-- The loop over the parts, given the same for the parts. -/
theorem args_spec {pick : Nat → Nat → Bool} {m : Nat} {h : Head}
    (H : ∀ (tab' : Table) (θ' : Nat → Ty) (t t' : Ty), Tri tab' θ' → SortedTable S tab' → InTable tab' t → InTable tab' t' →
      t.Sorted S → t'.Sorted S →
      (unbound tab' < unbound tab ∨ tab' = tab ∧ θ' = θ ∧ (t.subst θ).size + (t'.subst θ).size < m) →
      ∃ r, unify pick tab' t t' = some r ∧
        Post S tab' (fun ρ => t.subst ρ = t'.subst ρ) (fun ρ => Agree (t.subst ρ) (t'.subst ρ)) r) :
    ∀ (a b : Args) (tab1 : Table) (θ1 : Nat → Ty), Tri tab1 θ1 → SortedTable S tab1 →
      (∀ v, a.contains v = true → v < tab1.length) → (∀ v, b.contains v = true → v < tab1.length) → a.Sorted S → b.Sorted S →
      (unbound tab1 < unbound tab ∨ tab1 = tab ∧ θ1 = θ) → (a.subst θ).size + (b.subst θ).size < m →
      ∃ r, unifyArgs pick tab1 h a b = some r ∧
        Post S tab1 (fun ρ => a.subst ρ = b.subst ρ) (fun ρ => AgreeArgs h (a.subst ρ) (b.subst ρ)) r
  | .nil, b, tab1, θ1, ht, hs, _, _, _, _, _, _ => by
    refine ⟨.ok tab1, by rw [unifyArgs.eq_def], Post.same ht hs fun ρ _ => ?_⟩
    rw [Args.subst]
    exact .nil _
  | .cons n t rest, .nil, tab1, θ1, ht, hs, _, _, _, _, _, _ => by
    refine ⟨.ok tab1, by rw [unifyArgs.eq_def], Post.same ht hs fun ρ _ => ?_⟩
    rw [Args.subst, Args.subst]
    exact .nil' _
  | .cons n t rest, .cons n' t' rest', tab1, θ1, ht, hs, ha, hb, has, hbs, hlt, hm => by
    rw [unifyArgs.eq_def]
    simp only
    by_cases hnames : (checksNames h && n != n') = true
    · rw [if_pos hnames]
      refine ⟨_, rfl, fun ρ hρ hg => ?_⟩
      simp only [Args.subst] at hg
      simp at hg hnames
      exact hnames.2 hg.1
    · rw [if_neg hnames]
      have hnames' : checksNames h = true → n = n' := by
        intro hc
        simp [hc] at hnames
        exact hnames
      rw [Args.Sorted] at has hbs
      rw [Args.subst, Args.subst, Args.size, Args.size] at hm
      have hin : InTable tab1 t := fun v hv => ha v (by simp [Args.contains, hv])
      have hin' : InTable tab1 t' := fun v hv => hb v (by simp [Args.contains, hv])
      have hstep : ∃ r, (if swaps h rest then unify pick tab1 t' t else unify pick tab1 t t') = some r ∧
          Post S tab1 (fun ρ => t.subst ρ = t'.subst ρ) (fun ρ => Agree (t.subst ρ) (t'.subst ρ)) r := by
        cases swaps h rest with
        | true =>
          obtain ⟨r, h1, h2⟩ := H tab1 θ1 t' t ht hs hin' hin hbs.1 has.1 (by
            rcases hlt with h | ⟨h, h'⟩
            · exact .inl h
            · exact .inr ⟨h, h', by omega⟩)
          exact ⟨r, h1, h2.imp (fun ρ _ => Eq.symm) (fun ρ _ => Agree.symm)⟩
        | false =>
          exact H tab1 θ1 t t' ht hs hin hin' has.1 hbs.1 (by
            rcases hlt with h | ⟨h, h'⟩
            · exact .inl h
            · exact .inr ⟨h, h', by omega⟩)
      obtain ⟨r, hr, hp⟩ := hstep
      rw [hr]
      cases r with
      | error e =>
        refine ⟨_, rfl, fun ρ hρ hg => hp ρ hρ ?_⟩
        simp only [Args.subst] at hg
        simp at hg
        exact hg.2.1
      | ok tab2 =>
        obtain ⟨p1, ⟨θ2, p2⟩, p3, p4, p5, p6⟩ := hp
        have hnext : ∃ θ2, Tri tab2 θ2 ∧ (unbound tab2 < unbound tab ∨ tab2 = tab ∧ θ2 = θ) := by
          rcases p4 with rfl | p4
          · exact ⟨θ1, ht, hlt⟩
          · refine ⟨θ2, p2, .inl ?_⟩
            rcases hlt with h | ⟨h, h'⟩
            · omega
            · rw [← h]; exact p4
        obtain ⟨θ3, q1, q2⟩ := hnext
        obtain ⟨r, hr', hp'⟩ := args_spec H rest rest' tab2 θ3 q1 p3
          (fun v hv => by rw [p1]; exact ha v (by simp [Args.contains, hv]))
          (fun v hv => by rw [p1]; exact hb v (by simp [Args.contains, hv])) has.2 hbs.2 q2 (by omega)
        refine ⟨r, by simpa using hr', ?_⟩
        cases r with
        | error e =>
          intro ρ hρ hg
          simp only [Args.subst] at hg
          simp at hg
          exact hp' ρ (p6 ρ hρ hg.2.1) hg.2.2
        | ok tab3 =>
          obtain ⟨s1, s2, s3, s4, s5, s6⟩ := hp'
          refine ⟨s1.trans p1, s2, s3, ?_, ?_, ?_⟩
          · rcases s4 with rfl | s4
            · exact p4
            · rcases p4 with rfl | p4
              · exact .inr s4
              · exact .inr (by omega)
          · intro ρ hρ
            obtain ⟨a1, a2⟩ := s5 ρ hρ
            obtain ⟨b1, b2⟩ := p5 ρ a1
            refine ⟨b1, ?_⟩
            simp only [Args.subst]
            exact .cons hnames' b2 a2
          · intro ρ hρ hg
            simp only [Args.subst] at hg
            simp at hg
            exact s6 ρ (p6 ρ hρ hg.2.1) hg.2.2

/-- Unification ends; it finds the most general assignment, or there is none. -/
theorem unify_spec (hS : FixedArity S) (pick : Nat → Nat → Bool) : ∀ (n m : Nat) (tab : Table) (θ : Nat → Ty) (t t' : Ty),
    unbound tab = n → (t.subst θ).size + (t'.subst θ).size = m → Tri tab θ → SortedTable S tab → InTable tab t → InTable tab t' →
    t.Sorted S → t'.Sorted S →
    ∃ r, unify pick tab t t' = some r ∧
      Post S tab (fun ρ => t.subst ρ = t'.subst ρ) (fun ρ => Agree (t.subst ρ) (t'.subst ρ)) r := by
  intro n
  induction n using Nat.strong_induction_on with
  | _ n ihn =>
    intro m
    induction m using Nat.strong_induction_on with
    | _ m ihm =>
      intro tab θ t t' hn hm ht hs hi hi' hts hts'
      rw [unify]
      by_cases heq : t = t'
      · rw [if_pos heq]
        subst heq
        exact ⟨_, rfl, Post.same ht hs fun ρ _ => Agree.refl _⟩
      rw [if_neg heq, ht.normalize hi, ht.normalize hi']
      simp only [Option.bind_eq_bind, Option.bind_some]
      refine Exists.imp (fun r => And.imp_right fun h2 => Post.imp
        (goal := fun ρ => (t.subst θ).subst ρ = (t'.subst θ).subst ρ)
        (weak := fun ρ => Agree ((t.subst θ).subst ρ) ((t'.subst θ).subst ρ)) h2 ?_ ?_) ?_
      · intro ρ hρ hg
        rw [ht.agree hρ, ht.agree hρ]; exact hg
      · intro ρ hρ hg
        rw [ht.agree hρ, ht.agree hρ] at hg; exact hg
      obtain ⟨c, hc⟩ : ∃ c, c = t.subst θ := ⟨_, rfl⟩
      obtain ⟨e, he⟩ : ∃ e, e = t'.subst θ := ⟨_, rfl⟩
      rw [← hc, ← he]
      have hci : InTable tab c := hc ▸ ht.inTable_subst hi
      have hei : InTable tab e := he ▸ ht.inTable_subst hi'
      have hcs : c.Sorted S := hc ▸ Ty.sorted_subst t hts fun v _ => ht.sorted hs v
      have hes : e.Sorted S := he ▸ Ty.sorted_subst t' hts' fun v _ => ht.sorted hs v
      have hcf : c.subst θ = c := by rw [hc]; exact ht.idem_ty t
      have hef : e.subst θ = e := by rw [he]; exact ht.idem_ty t'
      have hsize : c.size + e.size = m := by rw [hc, he]; exact hm
      clear hc he hm heq
      by_cases hce : c = e
      · rw [if_pos hce]
        subst hce
        exact ⟨_, rfl, Post.same ht hs fun ρ _ => Agree.refl _⟩
      rw [if_neg hce]
      have hvar : ∀ (v : Nat) (s : Ty), InTable tab (.var v) → (Ty.var v).subst θ = .var v → InTable tab s → s.Sorted S →
          s.subst θ = s → s ≠ .var v → ∃ r, unifyVariable tab v s = some r ∧
            Post S tab (fun ρ => ρ v = s.subst ρ) (fun ρ => ρ v = s.subst ρ) r := by
        intro v s h1 h2 h3 h4 h5 h6
        exact unifyVariable_spec ht hs (by simpa [Ty.subst] using h2) (h1 v (by simp [Ty.contains])) h3 h4 h5 h6
      cases c with
      | never =>
        refine ⟨_, rfl, Post.same ht hs fun ρ _ => ?_⟩
        rw [Ty.subst]
        exact .left _
      | var v =>
        cases e with
        | never =>
          refine ⟨_, rfl, Post.same ht hs fun ρ _ => ?_⟩
          rw [Ty.subst, Ty.subst]
          exact .right _
        | var w =>
          simp only
          have hvw : v ≠ w := fun h => hce (by rw [h])
          unfold unifyVariables
          cases pick v w with
          | true =>
            obtain ⟨tab', h1, h2⟩ := bind_spec ht hs (by simpa [Ty.subst] using hcf) (hci v (by simp [Ty.contains])) hei hes hef
              (by simp [Ty.contains, hvw])
            refine ⟨.ok tab', by simp [h1], h2.imp (fun ρ _ hg => ?_) (fun ρ _ hg => ?_)⟩
            · simpa [Ty.subst] using hg
            · simp only [Ty.subst] at hg ⊢; rw [hg]; exact Agree.refl _
          | false =>
            obtain ⟨tab', h1, h2⟩ := bind_spec ht hs (by simpa [Ty.subst] using hef) (hei w (by simp [Ty.contains])) hci hcs hcf
              (by simp [Ty.contains]; omega)
            refine ⟨.ok tab', by simp [h1], h2.imp (fun ρ _ hg => ?_) (fun ρ _ hg => ?_)⟩
            · simp only [Ty.subst] at hg ⊢; exact hg.symm
            · simp only [Ty.subst] at hg ⊢; rw [hg]; exact Agree.refl _
        | node k args =>
          simp only
          obtain ⟨r, h1, h2⟩ := hvar v _ hci hcf hei hes hef (by simp)
          refine ⟨r, h1, h2.imp (fun ρ _ hg => ?_) (fun ρ _ hg => ?_)⟩
          · rw [← hg, Ty.subst]
          · rw [← hg, Ty.subst]; exact Agree.refl _
      | node k args =>
        cases e with
        | never =>
          refine ⟨_, rfl, Post.same ht hs fun ρ _ => ?_⟩
          rw [show Ty.never.subst ρ = .never from by rw [Ty.subst]]
          exact .right _
        | var w =>
          simp only
          obtain ⟨r, h1, h2⟩ := hvar w _ hei hef hci hcs hcf (by simp)
          refine ⟨r, h1, h2.imp (fun ρ _ hg => ?_) (fun ρ _ hg => ?_)⟩
          · rw [hg, Ty.subst]
          · rw [← hg, Ty.subst]; exact Agree.refl _
        | node k' args' =>
          simp only
          by_cases hk : k = k'
          · subst hk
            rw [if_neg (by simp)]
            rw [Ty.Sorted] at hcs hes
            rw [Ty.subst] at hcf hef
            simp only [Ty.node.injEq, true_and] at hcf hef
            by_cases hl : (checksLength k && args.length != args'.length) = true
            · rw [if_pos hl]
              refine ⟨_, rfl, fun ρ hρ hg => ?_⟩
              simp only [Ty.subst] at hg
              simp only [Ty.node.injEq, true_and] at hg
              have := congrArg Args.length hg
              rw [Args.length_subst, Args.length_subst] at this
              simp [this] at hl
            · rw [if_neg hl, if_neg]
              · obtain ⟨r, h1, h2⟩ := args_spec (S := S) (tab := tab) (θ := θ) (pick := pick) (m := m) (h := k) (by
                  intro tab' θ' s s' k1 k2 k3 k4 k5 k6 k7
                  rcases k7 with k7 | ⟨rfl, rfl, k7⟩
                  · exact ihn (unbound tab') (by omega) _ tab' θ' s s' rfl rfl k1 k2 k3 k4 k5 k6
                  · exact ihm _ k7 tab' θ' s s' hn rfl k1 k2 k3 k4 k5 k6) args args' tab θ ht hs
                  (fun v hv => hci v (by simpa [Ty.contains] using hv)) (fun v hv => hei v (by simpa [Ty.contains] using hv))
                  hcs.2 hes.2 (.inr ⟨rfl, rfl⟩) (by
                    rw [hcf, hef]
                    rw [Ty.size, Ty.size] at hsize
                    omega)
                refine ⟨r, h1, h2.imp (fun ρ _ hg => ?_) (fun ρ _ hg => ?_)⟩
                · simp only [Ty.subst] at hg
                  simpa using hg
                · rw [Ty.subst, Ty.subst]
                  refine .node (fun hc => ?_) hg
                  rw [Args.length_subst, Args.length_subst]
                  simpa [hc] using hl
              · intro hal
                cases k with
                | named d =>
                  have := hS d _ _ hcs.1 hes.1
                  rw [Args.length_names, Args.length_names] at this
                  simp [this] at hal
                | _ => simp [assertsLength] at hal
          · rw [if_pos hk]
            refine ⟨_, rfl, fun ρ hρ hg => ?_⟩
            simp only [Ty.subst] at hg
            simp only [Ty.node.injEq] at hg
            exact hk hg.1

end Ferlium.Unify
