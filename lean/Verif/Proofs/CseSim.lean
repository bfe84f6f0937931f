import Verif.Proofs.CseWalk

/-! Merging repeated address computations preserves behaviour. -/
namespace Ferlium.Mir

variable {V σ : Type} {W : World V σ} {s s1 : St V σ}

/-! ### A value stays in its register until it is consumed -/

/-- The register holds the value, or held it and the value was consumed. -/
def Still (s : St V σ) (o : Nat) (x : V) : Prop := s.env o = none ∨ ∃ b, s.env o = some (.value x b)

theorem Still.congr {o : Nat} {x : V} (h : Still s o x) (he : s1.env o = s.env o) : Still s1 o x := by
  unfold Still at h ⊢
  rw [he]; exact h

theorem still_exposeOne {v : Value} {o : Nat} {x : V} (h : Still s o x) : Still (exposeOne W s v) o x := by
  unfold exposeOne
  split
  · rename_i r
    split
    · rename_i c hc
      have : o ≠ r := by
        rintro rfl
        rcases h with h | ⟨b, h⟩ <;> rw [hc] at h <;> cases h
      exact h.congr (Function.update_of_ne this _ _)
    · exact h
  · exact h

theorem still_exposeFrom {direct : Nat → Bool} {o : Nat} {x : V} (vs : List Value) : ∀ (i : Nat) (s : St V σ),
    Still s o x → Still (exposeFrom W direct i vs s) o x := by
  induction vs with
  | nil => intro i s h; exact h
  | cons v vs ih =>
    intro i s h
    unfold exposeFrom
    apply ih
    split
    · exact h
    · exact still_exposeOne h

theorem still_writeCell {v : Option Value} {c : Option V} {o : Nat} {x : V} (h : Still s o x) :
    Still (writeCell s v c) o x := by
  unfold writeCell
  split
  · rename_i r
    split
    · rename_i c hc
      have : o ≠ r := by
        rintro rfl
        rcases h with h | ⟨b, h⟩ <;> rw [hc] at h <;> cases h
      exact h.congr (Function.update_of_ne this _ _)
    · exact h
  · exact h

theorem still_consumeSource {v : Option Value} {o : Nat} {x : V} (h : Still s o x) : Still (consumeSource W s v) o x := by
  unfold consumeSource
  split
  · rename_i r
    split
    · by_cases e : o = r
      · subst e; exact Or.inl (by simp)
      · exact h.congr (Function.update_of_ne e _ _)
    · exact h
  · exact h

theorem still_execOp {direct : Nat → Bool} {op : Op} {o : Nat} {x : V} (h : Still s o x)
    (hr : op.result ≠ some o) (he : (execOp W direct op s).Cont s1) : Still s1 o x := by
  have h1 := still_exposeFrom (W := W) (direct := direct) op.operands 0 s h
  unfold execOp at he
  simp only [] at he
  split at he
  · exact he.elim
  rename_i args _
  generalize exposeFrom W direct 0 op.operands s = s2 at h1 he
  have hres : ∀ v, Still (bindResult op v s2) o x := fun v => h1.congr (bindResult_frame hr)
  unfold execArgs at he
  split at he
  · cases he; exact hres _
  · exact he.elim
  · split at he
    · cases he; exact hres _
    · exact he.elim
  · split at he
    · cases he; exact hres _
    · exact he.elim
  · exact he.elim
  · cases he; exact still_writeCell (still_consumeSource h1)
  · unfold worldOp at he
    split at he
    · rename_i w _ _ _
      cases he
      refine Still.congr ?_ (bindOut_frame hr)
      have h3 : Still (applyMove op { s2 with world := w }) o x := by
        unfold applyMove
        split
        · exact still_writeCell (s := { s2 with world := w }) h1
        · exact h1
      unfold applyWrite
      split
      · exact still_writeCell h3
      · exact h3
    · cases he; exact h1
    · exact he.elim

/-! ### Exposing every operand leaves no private cell among them -/

theorem exposeOne_noCell {v : Value} {r : Nat} (h : ∀ c, s.env r ≠ some (.cell c)) (c : Option V) :
    (exposeOne W s v).env r ≠ some (.cell c) := by
  unfold exposeOne
  split
  · rename_i q
    split
    · by_cases e : r = q
      · subst e; simp
      · simp [Function.update_of_ne e, h]
    · exact h c
  · exact h c

theorem exposeFrom_noCell {direct : Nat → Bool} {r : Nat} (vs : List Value) : ∀ (i : Nat) (s : St V σ),
    (∀ c, s.env r ≠ some (.cell c)) → ∀ c, (exposeFrom W direct i vs s).env r ≠ some (.cell c) := by
  induction vs with
  | nil => intro i s h; exact h
  | cons v vs ih =>
    intro i s h
    unfold exposeFrom
    apply ih
    split
    · exact h
    · exact exposeOne_noCell h

theorem exposeFrom_operand {direct : Nat → Bool} (hdir : ∀ i, direct i = false) {r : Nat} (vs : List Value) :
    ∀ (i : Nat) (s : St V σ), Value.register r ∈ vs → ∀ c, (exposeFrom W direct i vs s).env r ≠ some (.cell c) := by
  induction vs with
  | nil => intro i s h; cases h
  | cons v vs ih =>
    intro i s h
    unfold exposeFrom
    rcases List.mem_cons.1 h with rfl | h
    · apply exposeFrom_noCell
      rw [hdir]
      intro c
      simp only [Bool.false_eq_true, if_false, exposeOne]
      split
      · simp
      · rename_i hc; exact hc c
    · exact ih _ _ h

theorem exposeFrom_id {direct : Nat → Bool} (vs : List Value) : ∀ (i : Nat) (s : St V σ),
    (∀ r, Value.register r ∈ vs → ∀ c, s.env r ≠ some (.cell c)) → exposeFrom W direct i vs s = s := by
  induction vs with
  | nil => intro i s h; rfl
  | cons v vs ih =>
    intro i s h
    unfold exposeFrom
    have : exposeOne W s v = s := by
      unfold exposeOne
      split
      · rename_i r
        split
        · rename_i c hc
          exact absurd hc (h r (by simp) c)
        · rfl
      · rfl
    rw [this, ite_self]
    exact ih _ _ fun r hr => h r (List.mem_cons_of_mem _ hr)

theorem argsFrom_values {reads : Nat → Bool} (vs : List Value) : ∀ (i : Nat) (as : List (Arg V)),
    (∀ r, Value.register r ∈ vs → ∀ c, s.env r ≠ some (.cell c)) → argsFrom W reads s i vs = some as →
    ∃ xs, as = xs.map Arg.value ∧ List.Forall₂ (fun v x => argOf W false s v = some (.value x)) vs xs := by
  induction vs with
  | nil =>
    intro i as _ h
    cases h
    exact ⟨[], rfl, .nil⟩
  | cons v vs ih =>
    intro i as hc h
    unfold argsFrom at h
    split at h
    · rename_i a as' h1 h2
      cases h
      obtain ⟨xs, rfl, h3⟩ := ih _ _ (fun r hr => hc r (List.mem_cons_of_mem _ hr)) h2
      have : ∃ x, a = .value x ∧ argOf W false s v = some (.value x) := by
        cases v with
        | register r =>
          simp only [argOf] at h1 ⊢
          cases hx : s.env r with
          | none => rw [hx] at h1; cases h1
          | some bd =>
            cases bd with
            | value x b =>
              rw [hx] at h1
              cases h1
              exact ⟨x, rfl, rfl⟩
            | cell c => exact absurd hx (hc r (by simp) c)
        | _ => cases h1; exact ⟨_, rfl, rfl⟩
      obtain ⟨x, rfl, h4⟩ := this
      exact ⟨x :: xs, rfl, .cons h4 h3⟩
    · cases h

end Ferlium.Mir

namespace Ferlium.Cse

open Ferlium.Mir Ferlium.Dominance Ferlium.Edit
open Ferlium.Negation (Site opAt opAt_some opAt_mem Before before_iff before_op before_jump before_irrefl not_before_start site_unique)

variable {V σ : Type} {W : World V σ} {f : Body} {s s1 s' : St V σ} {w : σ} {M R : List (Nat × Nat)}

/-- Address computations depend on their arguments only and change nothing. -/
def PlaceFn (W : World V σ) (f : Body) (F : Kind → List V → V) : Prop :=
  ∀ b ∈ f, ∀ op ∈ b.ops, numberable op.kind = true → ∀ vs w, W.exec op.kind (vs.map .value) w = .ok w (some (F op.kind vs)) none

theorem numberable_direct {op : Op} (h : numberable op.kind = true) (i : Nat) : op.direct i = false := by
  cases hk : op.kind <;> rw [hk] at h <;> simp [numberable] at h <;> simp [Op.direct, Op.writeIndex, Op.readsWhole, hk]

/-- What an address computation does. -/
theorem numberable_exec {F : Kind → List V → V} (hF : PlaceFn W f F) {b : Block} (hb : b ∈ f) {op : Op} (hop : op ∈ b.ops)
    (hn : numberable op.kind = true) {r : Nat} (hr : op.result = some r) (hx : execOp W op.direct op s ≠ .stuck) :
    ∃ vs, execOp W op.direct op s =
        .ok ((exposeFrom W op.direct 0 op.operands s).set r (some (.value (F op.kind vs) false))) ∧
      List.Forall₂ (fun v x => argOf W false (exposeFrom W op.direct 0 op.operands s) v = some (.value x)) op.operands vs := by
  unfold execOp at hx ⊢
  simp only [] at hx ⊢
  have hcell := fun q hq => exposeFrom_operand (W := W) (direct := op.direct) (numberable_direct hn) (r := q) op.operands 0 s hq
  generalize exposeFrom W op.direct 0 op.operands s = s2 at hx hcell ⊢
  cases ha : argsFrom W op.readsWhole s2 0 op.operands with
  | none => rw [ha] at hx; exact absurd rfl hx
  | some args =>
    obtain ⟨vs, rfl, h2⟩ := argsFrom_values op.operands 0 args hcell ha
    refine ⟨vs, ?_, h2⟩
    simp only []
    have hE := hF b hb op hop hn vs s2.world
    have : execArgs W op (vs.map .value) s2 = worldOp W op (vs.map .value) s2 := by
      unfold execArgs
      cases hk : op.kind <;> rw [hk] at hn <;> simp [numberable] at hn <;> rfl
    rw [this]
    unfold worldOp
    rw [hE]
    simp only []
    have h1 : applyMove op { s2 with world := s2.world } = s2 := by
      unfold applyMove
      rw [if_neg]
      intro h; rw [h] at hn; simp [numberable] at hn
    have h2 : applyWrite op none s2 = s2 := by
      unfold applyWrite Op.writeIndex
      cases hk : op.kind <;> rw [hk] at hn <;> simp [numberable] at hn <;> rfl
    rw [h1, h2]
    congr 1
    unfold bindOut bindResult
    have h3 : op.owned = false := by
      unfold Op.owned
      cases hk : op.kind <;> rw [hk] at hn <;> simp [numberable] at hn <;> rfl
    rw [hr, h3]
    cases hk : op.kind <;> rw [hk] at hn <;> simp [numberable] at hn <;> rfl

/-! ### The invariant of the original body -/

/-- The operand has the value, unless it was consumed. -/
def Holds (W : World V σ) (s : St V σ) (v : Value) (x : V) : Prop :=
  match v with
  | .register o => Still s o x
  | v => argOf W false s v = some (.value x)

theorem holds_congr {v : Value} {x : V} (h : Holds W s v x) (hs : ∀ o, v = .register o → Still s o x → Still s1 o x) :
    Holds W s1 v x := by
  unfold Holds at h ⊢
  cases v with
  | register o => exact hs o rfl h
  | _ => exact h

theorem holds_of_arg {v : Value} {x : V} (h : argOf W false s v = some (.value x)) : Holds W s v x := by
  unfold Holds
  cases v with
  | register o =>
    right
    simp only [argOf] at h
    split at h
    · cases h
    · rename_i y b hy
      cases h
      exact ⟨b, hy⟩
    · simp at h
  | _ => exact h

/-- What the registers hold at a point of the original body. -/
structure Inv (W : World V σ) (f : Body) (F : Kind → List V → V) (M : List (Nat × Nat)) (p : Site) (s : St V σ) : Prop where
  place : ∀ q op r, opAt f q = some op → Before f q p → numberable op.kind = true → op.result = some r →
    ∃ vs, s.env r = some (.value (F op.kind vs) false) ∧ List.Forall₂ (Holds W s) op.operands vs
  pairs : ∀ x c, (x, c) ∈ M → ∀ q op, opAt f q = some op → op.result = some x → Before f q p → s.env x = s.env c

theorem forall₂_holds {vs : List Value} {xs : List V} (h : List.Forall₂ (Holds W s) vs xs)
    (hs : ∀ o x, Value.register o ∈ vs → Still s o x → Still s1 o x) : List.Forall₂ (Holds W s1) vs xs := by
  induction h with
  | nil => exact .nil
  | cons h1 h2 ih =>
    refine .cons (holds_congr h1 fun o e h => hs o _ (by rw [e]; simp) h) (ih fun o x ho => hs o x (List.mem_cons_of_mem _ ho))

/-- The invariant is kept when no register defined before the point changes. -/
theorem inv_keep (hs : SingleAssignment f) (hG : Glob f (fun q => Reachable f q.block) M R) (hd : DefsFirst f)
    {F : Kind → List V → V} {p p' : Site} (hp : Reachable f p.block) (hI : Inv W f F M p s)
    (hb : ∀ q op, opAt f q = some op → Before f q p' → Before f q p)
    (hval : ∀ q op r x, opAt f q = some op → op.result = some r → Before f q p → s.env r = some (.value x false) →
      s1.env r = some (.value x false))
    (hst : ∀ o x, (∀ q op, opAt f q = some op → op.result = some o → Before f q p) → Still s o x → Still s1 o x) :
    Inv W f F M p' s1 := by
  constructor
  · intro q op r h1 h2 h3 h4
    have h2 := hb q op h1 h2
    obtain ⟨vs, k1, k2⟩ := hI.place q op r h1 h2 h3 h4
    refine ⟨vs, hval q op r _ h1 h4 h2 k1, forall₂_holds k2 ?_⟩
    intro o x ho
    exact hst o x fun d od h5 h6 => before_trans' hp (hd.ops q op o h1 ho d od h5 h6) h2
  · intro x c hx q op h1 h2 h3
    have h3 := hb q op h1 h3
    have heq := hI.pairs x c hx q op h1 h2 h3
    obtain ⟨q1, q2, o1, o2, k1, k2, k3, k4, k5, k6, k7, k8, k9, k10⟩ := hG.pairs x c hx
    have hc : numberable o2.kind = true := by
      have := congrArg Expr.kind k9
      have this : o2.kind = o1.kind := this
      rw [this]; exact k8
    obtain ⟨rfl, rfl⟩ := site_unique hs h1 k2 h2 k3
    obtain ⟨vs, j1, _⟩ := hI.place q op x k2 h3 k8 k3
    have hbc := before_trans' hp k6 h3
    rw [hval q op x _ k2 k3 h3 j1, hval q2 o2 c _ k4 k5 hbc (heq ▸ j1)]

theorem lookup_mem {x c : Nat} (h : M.lookup x = some c) : (x, c) ∈ M := by
  induction M with
  | nil => cases h
  | cons p M ih =>
    rw [List.lookup_cons] at h
    by_cases e : x = p.1
    · subst e
      simp only [beq_self_eq_true] at h
      cases h
      simp
    · simp only [beq_eq_false_iff_ne.2 e] at h
      exact List.mem_cons_of_mem _ (ih h)

/-- The register in which the merged body finds a value. -/
def rep (M : List (Nat × Nat)) (r : Nat) : Nat := (M.lookup r).getD r

theorem canon_register (r : Nat) : canon M (.register r) = .register (rep M r) := by
  unfold canon rep
  cases h : M.lookup r <;> simp [h]

/-- A register holds the same as its representative. -/
theorem inv_rep (hG : Glob f (fun q => Reachable f q.block) M R) {F : Kind → List V → V} {p : Site} (hI : Inv W f F M p s)
    {r : Nat} (hr : ∀ q op, opAt f q = some op → op.result = some r → Before f q p) : s.env r = s.env (rep M r) := by
  unfold rep
  cases h : M.lookup r with
  | none => rfl
  | some c =>
    have hm := lookup_mem h
    obtain ⟨q, _, o, _, _, k2, k3, _⟩ := hG.pairs r c hm
    exact hI.pairs r c hm q o k2 k3 (hr q o k2 k3)

/-- The operands of a duplicate are values, the same as those of its representative. -/
theorem dup_operand (hG : Glob f (fun q => Reachable f q.block) M R) {F : Kind → List V → V} {p : Site} (hI : Inv W f F M p s)
    {v v' : Value} {x' : V} (hv : ∀ r, v = .register r → ∀ q op, opAt f q = some op → op.result = some r → Before f q p)
    (hv' : ∀ r, v' = .register r → ∀ q op, opAt f q = some op → op.result = some r → Before f q p)
    (hc : canon M v' = canon M v) (hx' : Holds W s v' x') :
    (∀ r, v = .register r → ∀ c, s.env r ≠ some (.cell c)) ∧ ∀ x, argOf W false s v = some (.value x) → x = x' := by
  cases v with
  | register r =>
    rw [canon_register] at hc
    cases v' with
    | register r' =>
      rw [canon_register] at hc
      have hrep : rep M r' = rep M r := by injection hc
      have he : s.env r = s.env r' := by
        rw [inv_rep hG hI (hv r rfl), inv_rep hG hI (hv' r' rfl), hrep]
      have hx' : Still s r' x' := hx'
      unfold Still at hx'
      rw [← he] at hx'
      constructor
      · rintro r0 h0 c hc
        cases h0
        rcases hx' with h | ⟨b, h⟩ <;> rw [hc] at h <;> cases h
      · intro x hx
        simp only [argOf] at hx
        rcases hx' with h | ⟨b, h⟩
        · rw [h] at hx; cases hx
        · rw [h] at hx; cases hx; rfl
    | _ => simp [canon] at hc
  | _ =>
    cases v' with
    | register r' => rw [canon_register] at hc; simp [canon] at hc
    | _ =>
      have hc : _ = _ := hc
      simp only [canon, reduceCtorEq] at hc
      try (
        rw [← hc]
        refine ⟨by simp, ?_⟩
        intro x hx
        have hx' : argOf W false s _ = some (.value x') := hx'
        rw [hx'] at hx
        cases hx; rfl)

theorem dup_operands (hG : Glob f (fun q => Reachable f q.block) M R) {F : Kind → List V → V} {p : Site} (hI : Inv W f F M p s) :
    ∀ (vs vs' : List Value) (xs' : List V),
    (∀ r, Value.register r ∈ vs → ∀ q op, opAt f q = some op → op.result = some r → Before f q p) →
    (∀ r, Value.register r ∈ vs' → ∀ q op, opAt f q = some op → op.result = some r → Before f q p) →
    vs'.map (canon M) = vs.map (canon M) → List.Forall₂ (Holds W s) vs' xs' →
    (∀ r, Value.register r ∈ vs → ∀ c, s.env r ≠ some (.cell c)) ∧
    ∀ xs, List.Forall₂ (fun v x => argOf W false s v = some (.value x)) vs xs → xs = xs' := by
  intro vs
  induction vs with
  | nil =>
    intro vs' xs' _ _ hm hx
    have : vs' = [] := by simpa using hm
    subst this
    cases hx
    exact ⟨by simp, fun xs h => by cases h; rfl⟩
  | cons v vs ih =>
    intro vs' xs' hv hv' hm hx
    cases vs' with
    | nil => simp at hm
    | cons v' vs' =>
      simp only [List.map_cons, List.cons.injEq] at hm
      cases hx with
      | @cons _ x' _ xs' h1 h2 =>
        obtain ⟨a1, a2⟩ := dup_operand hG hI (v := v) (fun r e => hv r (by rw [e]; simp)) (fun r e => hv' r (by rw [e]; simp)) hm.1 h1
        obtain ⟨b1, b2⟩ := ih vs' xs' (fun r hr => hv r (List.mem_cons_of_mem _ hr)) (fun r hr => hv' r (List.mem_cons_of_mem _ hr)) hm.2 h2
        constructor
        · intro r hr
          rcases List.mem_cons.1 hr with hr | hr
          · exact a1 r hr.symm
          · exact b1 r hr
        · intro xs h
          cases h with
          | cons k1 k2 => rw [a2 _ k1, b2 _ k2]

/-- Executing a duplicate binds its register to what its representative holds, and changes nothing else. -/
theorem dup_exec (hd : DefsFirst f) (hG : Glob f (fun q => Reachable f q.block) M R)
    {F : Kind → List V → V} (hF : PlaceFn W f F) {p : Site} (hp : Reachable f p.block) (hI : Inv W f F M p s) {op : Op}
    (hop : opAt f p = some op) {x c : Nat} (hx : op.result = some x) (hm : (x, c) ∈ M) (hs : SingleAssignment f)
    (hns : execOp W op.direct op s ≠ .stuck) : execOp W op.direct op s = .ok (s.set x (s.env c)) := by
  obtain ⟨q, q', o, o', k1, k2, k3, k4, k5, k6, k7, k8, k9, k10⟩ := hG.pairs x c hm
  obtain ⟨rfl, rfl⟩ := site_unique hs k2 hop k3 hx
  obtain ⟨blk, hb, hmem⟩ := opAt_mem hop
  obtain ⟨vs, e1, e2⟩ := numberable_exec hF hb hmem k8 hx hns
  have hkind : o'.kind = o.kind := congrArg Expr.kind k9
  have hoper : o'.operands.map (canon M) = o.operands.map (canon M) := congrArg Expr.operands k9
  obtain ⟨vs', j1, j2⟩ := hI.place q' o' c k4 k6 (by rw [hkind]; exact k8) k5
  obtain ⟨a1, a2⟩ := dup_operands hG hI o.operands o'.operands vs' (fun r hr d od h1 h2 => hd.ops q o r hop hr d od h1 h2)
    (fun r hr d od h1 h2 => before_trans' hp (hd.ops q' o' r k4 hr d od h1 h2) k6) hoper j2
  rw [exposeFrom_id _ _ _ a1] at e1 e2
  rw [e1, a2 vs e2, j1, hkind]

theorem inv_op (hs : SingleAssignment f) (hd : DefsFirst f) (hG : Glob f (fun q => Reachable f q.block) M R)
    {F : Kind → List V → V} (hF : PlaceFn W f F) {b i : Nat} (hp : Reachable f b) {op : Op} (hop : opAt f ⟨b, i⟩ = some op)
    (hI : Inv W f F M ⟨b, i⟩ s) (hx : execOp W op.direct op s = .ok s1) : Inv W f F M ⟨b, i + 1⟩ s1 := by
  have hcont : (execOp W op.direct op s).Cont s1 := by rw [hx]; rfl
  have hne : ∀ o, (∀ q oq, opAt f q = some oq → oq.result = some o → Before f q ⟨b, i⟩) → op.result ≠ some o :=
    fun o h e => before_irrefl _ (h _ op hop e)
  have hne' : ∀ q oq r, opAt f q = some oq → oq.result = some r → Before f q ⟨b, i⟩ → op.result ≠ some r := by
    intro q oq r h1 h2 h3 e
    obtain ⟨rfl, -⟩ := site_unique hs h1 hop h2 e
    exact before_irrefl _ h3
  have hold : Inv W f F M ⟨b, i⟩ s1 := by
    refine inv_keep hs hG hd (p := ⟨b, i⟩) hp hI (fun _ _ _ h => h) ?_ ?_
    · intro q oq r x h1 h2 h3 h4
      exact execOp_value h4 (hne' q oq r h1 h2 h3) hcont
    · intro o x h1 h2
      exact still_execOp h2 (hne o h1) hcont
  constructor
  · intro q oq r h1 h2 h3 h4
    rcases before_op h2 with rfl | h2
    · rw [hop] at h1; cases h1
      obtain ⟨blk, hb, hmem⟩ := opAt_mem hop
      obtain ⟨vs, e1, e2⟩ := numberable_exec hF hb hmem h3 h4 (by rw [hx]; simp)
      rw [hx] at e1
      cases e1
      refine ⟨vs, by simp [St.set], ?_⟩
      have : List.Forall₂ (Holds W (exposeFrom W op.direct 0 op.operands s)) op.operands vs := e2.imp fun _ _ h => holds_of_arg h
      refine forall₂_holds this ?_
      intro o x ho h5
      have hro : o ≠ r := by
        rintro rfl
        exact before_irrefl _ (hd.ops _ op o hop ho _ op hop h4)
      exact h5.congr (by simp [St.set, Function.update_of_ne hro])
    · exact hold.place q oq r h1 h2 h3 h4
  · intro x c hm q oq h1 h2 h3
    rcases before_op h3 with rfl | h3
    · rw [hop] at h1; cases h1
      have := dup_exec hd hG hF (p := ⟨b, i⟩) hp hI hop h2 hm hs (by rw [hx]; simp)
      rw [hx] at this
      cases this
      by_cases e : c = x
      · rw [e]
      · simp [St.set, Function.update_of_ne e]
    · exact hold.pairs x c hm q oq h1 h2 h3

/-! ### Renaming operands -/

/-- Same state up to the merged registers; the registers in `T` which are merged hold the value of their
representative. -/
structure Match (M : List (Nat × Nat)) (T : Nat → Prop) (s s' : St V σ) : Prop where
  world : s.world = s'.world
  env : ∀ r, M.lookup r = none → s.env r = s'.env r
  pinned : ∀ r c, T r → M.lookup r = some c → ∃ x, s.env r = some (.value x false) ∧ s'.env c = some (.value x false)

variable {T : Nat → Prop}

theorem Match.setWorld (h : Match M T s s') (w : σ) : Match M T { s with world := w } { s' with world := w } :=
  ⟨rfl, h.env, h.pinned⟩

theorem Match.weak (h : Match M T s s') : Match M (fun _ => False) s s' := ⟨h.world, h.env, fun _ _ h => h.elim⟩

theorem Match.set (h : Match M T s s') (r : Nat) (b : Option (Bind V)) : Match M (fun _ => False) (s.set r b) (s'.set r b) := by
  refine ⟨h.world, ?_, fun _ _ h => h.elim⟩
  intro q hq
  simp only [St.set, Function.update_apply]
  split
  · rfl
  · exact h.env q hq

/-- Both sides do the same to a register which is not merged. -/
theorem Match.update {r : Nat} {b : Option (Bind V)} {w w' : σ} (h : Match M T s s') (hw : w = w')
    (hr : ∀ x, s.env r ≠ some (.value x false)) (hr' : M.lookup r = none) :
    Match M T ⟨Function.update s.env r b, w⟩ ⟨Function.update s'.env r b, w'⟩ := by
  refine ⟨hw, ?_, ?_⟩
  · intro q hq
    simp only [Function.update_apply]
    split
    · rfl
    · exact h.env q hq
  · intro q c hq hl
    obtain ⟨x, h1, h2⟩ := h.pinned q c hq hl
    have hne : q ≠ r := fun e => hr x (e ▸ h1)
    have hne' : c ≠ r := fun e => hr x (by rw [h.env r hr', ← e]; exact h2)
    exact ⟨x, by simp [Function.update_of_ne hne, h1], by simp [Function.update_of_ne hne', h2]⟩

theorem match_exposeOne (h : Match M T s s') {v : Value} (hv : ∀ r, v = .register r → T r) :
    Match M T (exposeOne W s v) (exposeOne W s' (canon M v)) := by
  cases v with
  | register r =>
    cases hl : M.lookup r with
    | none =>
      have hc : canon M (.register r) = .register r := by simp [canon, hl]
      rw [hc]
      unfold exposeOne
      simp only []
      rw [← h.env r hl]
      split
      · rename_i c hcell
        rw [h.world]
        exact h.update rfl (by rw [hcell]; simp) hl
      · exact h
    | some c =>
      have hc : canon M (.register r) = .register c := by simp [canon, hl]
      obtain ⟨x, h1, h2⟩ := h.pinned r c (hv r rfl) hl
      rw [hc]
      simp only [exposeOne, h1, h2]
      exact h
  | _ => exact h

theorem match_exposeFrom {direct : Nat → Bool} (vs : List Value) : ∀ (i : Nat) {s s' : St V σ}, Match M T s s' →
    (∀ r, Value.register r ∈ vs → T r) →
    Match M T (exposeFrom W direct i vs s) (exposeFrom W direct i (vs.map (canon M)) s') := by
  induction vs with
  | nil => intro i s s' h _; exact h
  | cons v vs ih =>
    intro i s s' h hv
    rw [List.map_cons]
    unfold exposeFrom
    apply ih
    · split
      · exact h
      · exact match_exposeOne h fun r e => hv r (by rw [e]; simp)
    · exact fun r hr => hv r (List.mem_cons_of_mem _ hr)

theorem match_argOf {reads : Bool} (h : Match M T s s') {v : Value} (hv : ∀ r, v = .register r → T r) :
    argOf W reads s v = argOf W reads s' (canon M v) := by
  cases v with
  | register r =>
    cases hl : M.lookup r with
    | none =>
      have hc : canon M (.register r) = .register r := by simp [canon, hl]
      rw [hc]
      simp only [argOf, h.env r hl]
    | some c =>
      have hc : canon M (.register r) = .register c := by simp [canon, hl]
      obtain ⟨x, h1, h2⟩ := h.pinned r c (hv r rfl) hl
      rw [hc]
      simp only [argOf, h1, h2]
  | _ => rfl

theorem match_argsFrom {reads : Nat → Bool} (h : Match M T s s') (vs : List Value) : ∀ (i : Nat),
    (∀ r, Value.register r ∈ vs → T r) → argsFrom W reads s i vs = argsFrom W reads s' i (vs.map (canon M)) := by
  induction vs with
  | nil => intro i _; rfl
  | cons v vs ih =>
    intro i hv
    rw [List.map_cons]
    unfold argsFrom
    rw [match_argOf h fun r e => hv r (by rw [e]; simp), ih (i + 1) fun r hr => hv r (List.mem_cons_of_mem _ hr)]

theorem match_writeCell (h : Match M T s s') {v : Option Value} (hv : ∀ r, v = some (.register r) → T r) (c : Option V) :
    Match M T (writeCell s v c) (writeCell s' (v.map (canon M)) c) := by
  cases v with
  | none => exact h
  | some v =>
    cases v with
    | register r =>
      cases hl : M.lookup r with
      | none =>
        have hc : canon M (.register r) = .register r := by simp [canon, hl]
        rw [Option.map_some, hc]
        unfold writeCell
        simp only []
        rw [← h.env r hl]
        split
        · rename_i c0 hcell
          exact h.update h.world (by rw [hcell]; simp) hl
        · exact h
      | some c' =>
        have hc : canon M (.register r) = .register c' := by simp [canon, hl]
        obtain ⟨x, h1, h2⟩ := h.pinned r c' (hv r rfl) hl
        rw [Option.map_some, hc]
        simp only [writeCell, h1, h2]
        exact h
    | _ => exact h

theorem match_consumeSource (h : Match M T s s') {v : Option Value} (hv : ∀ r, v = some (.register r) → T r) :
    Match M T (consumeSource W s v) (consumeSource W s' (v.map (canon M))) := by
  cases v with
  | none => exact h
  | some v =>
    cases v with
    | register r =>
      cases hl : M.lookup r with
      | none =>
        have hc : canon M (.register r) = .register r := by simp [canon, hl]
        rw [Option.map_some, hc]
        unfold consumeSource
        simp only []
        rw [← h.env r hl]
        split
        · rename_i c0 hcell
          rw [h.world]
          exact h.update rfl (by rw [hcell]; simp) hl
        · exact h
      | some c' =>
        have hc : canon M (.register r) = .register c' := by simp [canon, hl]
        obtain ⟨x, h1, h2⟩ := h.pinned r c' (hv r rfl) hl
        rw [Option.map_some, hc]
        simp only [consumeSource, h1, h2]
        exact h
    | _ => exact h

theorem rename_owned (op : Op) : (renameOp M op).owned = op.owned := by
  unfold Op.owned renameOp
  simp only [List.length_map]

theorem rename_writeIndex (op : Op) : (renameOp M op).writeIndex = op.writeIndex := by
  unfold Op.writeIndex renameOp callResultIndex
  simp only [List.length_map]

theorem rename_readsWhole (op : Op) : (renameOp M op).readsWhole = op.readsWhole := rfl

theorem rename_direct (op : Op) : (renameOp M op).direct = op.direct := by
  funext i
  unfold Op.direct
  rw [rename_writeIndex, rename_readsWhole]

theorem rename_operand (op : Op) (i : Nat) : (renameOp M op).operands[i]? = op.operands[i]?.map (canon M) := by
  unfold renameOp
  simp

theorem match_bindResult (h : Match M T s s') (op : Op) (v : Option V) :
    Match M (fun _ => False) (bindResult op v s) (bindResult (renameOp M op) v s') := by
  unfold bindResult
  rw [rename_owned]
  rw [show (renameOp M op).result = op.result from rfl]
  cases op.result with
  | none => exact h.weak
  | some r =>
    cases v with
    | none => exact h.set _ _
    | some v => exact h.set _ _

theorem match_bindOut (h : Match M T s s') (op : Op) (v : Option V) :
    Match M (fun _ => False) (bindOut op v s) (bindOut (renameOp M op) v s') := by
  unfold bindOut
  rw [show (renameOp M op).kind = op.kind from rfl, show (renameOp M op).result = op.result from rfl]
  split
  · split
    · exact h.set _ _
    · exact h.weak
  · exact match_bindResult h op v

/-- Outcomes which are the same up to the merged registers. -/
def StepMatch (M : List (Nat × Nat)) : Step V σ → Step V σ → Prop
  | .ok a, .ok b => Match M (fun _ => False) a b
  | .error a, .error b => Match M (fun _ => False) a b
  | .halt w, .halt w' => w = w'
  | .stuck, .stuck => True
  | _, _ => False

theorem match_worldOp (h : Match M T s s') (op : Op) (ho : ∀ r, Value.register r ∈ op.operands → T r) (args : List (Arg V)) :
    StepMatch M (worldOp W op args s) (worldOp W (renameOp M op) args s') := by
  have hmem : ∀ (i : Nat) r, op.operands[i]? = some (.register r) → T r := fun i r hi => ho r (List.mem_of_getElem? hi)
  unfold worldOp
  rw [show (renameOp M op).kind = op.kind from rfl, h.world]
  split
  · rename_i w res wr _
    apply match_bindOut (T := T)
    have h1 : Match M T (applyMove op { s with world := w }) (applyMove (renameOp M op) { s' with world := w }) := by
      unfold applyMove
      rw [show (renameOp M op).kind = op.kind from rfl]
      split
      · rw [rename_operand]
        exact match_writeCell (h.setWorld w) (hmem 0) none
      · exact h.setWorld w
    unfold applyWrite
    rw [rename_writeIndex]
    split
    · rename_i i _
      rw [rename_operand]
      exact match_writeCell h1 (hmem i) wr
    · exact h1
  · exact (h.setWorld _).weak
  · rfl

theorem match_execArgs (h : Match M T s s') (op : Op) (ho : ∀ r, Value.register r ∈ op.operands → T r) (args : List (Arg V)) :
    StepMatch M (execArgs W op args s) (execArgs W (renameOp M op) args s') := by
  have hmem : ∀ (i : Nat) r, op.operands[i]? = some (.register r) → T r := fun i r hi => ho r (List.mem_of_getElem? hi)
  have hcmp : ∀ v l, StepMatch M
      (match W.compare v l s.world with | some b => .ok (bindResult op (some b) s) | none => .stuck : Step V σ)
      (match W.compare v l s'.world with | some b => .ok (bindResult (renameOp M op) (some b) s') | none => .stuck) := by
    intro v l
    rw [h.world]
    split
    · exact match_bindResult h op _
    · trivial
  unfold execArgs
  rw [show (renameOp M op).kind = op.kind from rfl]
  split
  · exact match_bindResult h op _
  · trivial
  · exact hcmp _ _
  · exact hcmp _ _
  · trivial
  · rw [rename_operand, rename_operand]
    exact (match_writeCell (match_consumeSource h (hmem 0)) (hmem 1) _).weak
  · exact match_worldOp h op ho _

theorem match_execOp {direct : Nat → Bool} (h : Match M T s s') (op : Op) (ho : ∀ r, Value.register r ∈ op.operands → T r) :
    StepMatch M (execOp W direct op s) (execOp W direct (renameOp M op) s') := by
  have h1 := match_exposeFrom (W := W) (direct := direct) op.operands 0 h ho
  unfold execOp
  simp only []
  rw [show (renameOp M op).operands = op.operands.map (canon M) from rfl, rename_readsWhole]
  rw [← match_argsFrom h1 op.operands 0 ho]
  split
  · trivial
  · exact match_execArgs h1 op ho _

end Ferlium.Cse
