import Verif.Proofs.ValueSemCall

/-!
# The compiled program does what the values of the variables say
-/

namespace Ferlium.ValueSem

/-- Both executions end in the same way, with related results. -/
def Rel {β γ : Type} (R : β → γ → Prop) : Except Err β → Except Err γ → Prop
  | .ok a, .ok b => R a b
  | .error a, .error b => a = b
  | _, _ => False

theorem Rel.bind {β γ β' γ' : Type} {R : β → γ → Prop} {S : β' → γ' → Prop} {x : Except Err β}
    {y : Except Err γ} {f : β → Except Err β'} {g : γ → Except Err γ'} (h : Rel R x y)
    (k : ∀ a b, x = .ok a → y = .ok b → R a b → Rel S (f a) (g b)) : Rel S (x >>= f) (y >>= g) := by
  cases x with
  | error e => cases y with
    | error e' => exact h
    | ok b => exact h.elim
  | ok a => cases y with
    | error e' => exact h.elim
    | ok b => exact k a b rfl rfl h

theorem Rel.imp {β γ : Type} {R S : β → γ → Prop} {x : Except Err β} {y : Except Err γ}
    (h : Rel R x y) (k : ∀ a b, R a b → S a b) : Rel S x y := by
  cases x <;> cases y <;> first | exact k _ _ h | exact h

/-- The address and the part meant by a place. -/
def PlaceR (E : Env) (m : Mem) (p : Place) (r : Addr × Mem)
    (r' : (Nat × List (Part Unit)) × List (Val Unit)) : Prop :=
  Post E (fun o => p.mayWrite o) m r.2 r'.2 ∧ r'.1.1 = p.root ∧
    ∃ (b : Bool × Addr) (q : List (Part Nat)), E[p.root]? = some b ∧ r.1 = b.2.sub q ∧
      r'.1.2 = q.map Part.erase ∧ Matches p.parts q ∧ Held r.2 r'.2 p.root b q

/-- The value of an expression. -/
def ExpR (E : Env) (m : Mem) (e : Exp) (r : Val Unit × Mem) (r' : Val Unit × List (Val Unit)) :
    Prop :=
  r.1 = r'.1 ∧ Post E (fun o => e.mayWrite o) m r.2 r'.2

/-- The arguments. -/
def ArgsR (E : Env) (m : Mem) (muts : List SPath) (args : Args) (r : List Addr × Mem)
    (r' : List VArg × List (Val Unit)) : Prop :=
  Post E (fun o => args.mayWrite o) m r.2 r'.2 ∧ ArgsRel E m.next r.2 r'.2 muts args r.1 r'.1

/-- The mutability of the names. -/
abbrev Env.muts (E : Env) : List Bool := E.map (·.1)

theorem Env.muts_get {E : Env} {x : Nat} {b : Bool × Addr} (h : E[x]? = some b) :
    E.muts[x]? = some b.1 := by simp [Env.muts, h]

theorem mut_of_check {E : Env} {x : Nat} {b : Bool × Addr} (h : E[x]? = some b)
    (hc : (E.muts[x]? == some true) = true) : b.1 = true := by
  rw [Env.muts_get h] at hc
  simpa using hc

theorem Inv.lt {E : Env} {m : Mem} {s} (h : Inv E m s) :
    ∀ (x : Nat) (b : Bool × Addr), E[x]? = some b → b.2.1 < m.next := fun x b hb => (h.rel x b hb).1

theorem element_int {len : Nat} {k : Int} {i : Nat} (h : element len k = some i) (hk : 0 ≤ k) :
    i = k.toNat := by
  have hn : ¬ k < 0 := by omega
  simp only [element, if_neg hn] at h
  split at h
  · exact (Option.some.inj h).symm
  · cases h

theorem or_false_iff {a b : Bool} : (a || b) = false ↔ a = false ∧ b = false := by
  cases a <;> cases b <;> simp

theorem stable_imp {a b : Bool} (h : (!a || !b) = true) : a = true → b = false := by
  cases a <;> cases b <;> simp at h ⊢

/-- The statement for a bound on the number of steps. -/
structure Sim (P : List Fn) (n : Nat) : Prop where
  place : ∀ (E : Env) (m : Mem) (s : List (Val Unit)) (p : Place), Inv E m s →
    p.check P E.muts = true → p.stable = true →
    Rel (PlaceR E m p) (runPlace P n E m p) (evalPlace P n s p)
  exp : ∀ (E : Env) (m : Mem) (s : List (Val Unit)) (e : Exp), Inv E m s →
    e.check P E.muts = true → e.stable = true →
    Rel (ExpR E m e) (run P n E m e) (eval P n s e)
  args : ∀ (E : Env) (m : Mem) (s : List (Val Unit)) (muts : List SPath) (args : Args), Inv E m s →
    args.check P E.muts = true → args.stable = true →
    Rel (ArgsR E m muts args) (runArgs P n E m muts args) (evalArgs P n s args)

theorem run_int {P : List Fn} {n : Nat} {E : Env} {m : Mem} {k : Int} {r}
    (h : run P n E m (.int k) = .ok r) : r.1 = .int k := by
  cases n with
  | zero => cases h
  | succ n => cases h; rfl

theorem sim_place {P : List Fn} {n : Nat} (ih : Sim P n) (E : Env) (m : Mem)
    (s : List (Val Unit)) (p : Place) (hI : Inv E m s) (hc : p.check P E.muts = true)
    (hs : p.stable = true) :
    Rel (PlaceR E m p) (runPlace P (n + 1) E m p) (evalPlace P (n + 1) s p) := by
  cases p with
  | var x =>
    simp only [Place.check, decide_eq_true_eq, Env.muts, List.length_map] at hc
    simp only [runPlace, evalPlace, List.getElem?_eq_getElem hc]
    refine ⟨Post.refl hI, rfl, E[x], [], List.getElem?_eq_getElem hc, (sub_nil _).symm, rfl,
      List.Forall₂.nil, Held.of_proj hI (List.getElem?_eq_getElem hc) (by simp)⟩
  | proj p i =>
    simp only [Place.check] at hc
    simp only [Place.stable] at hs
    simp only [runPlace, evalPlace]
    refine (ih.place E m s p hI hc hs).bind ?_
    rintro ⟨a, m₁⟩ ⟨⟨x, q'⟩, s₁⟩ - - ⟨hP, hx, b, q, hb, ha, hq', hq, hH⟩
    simp only at hx ha hq'
    subst hx; subst ha; subst hq'
    refine ⟨hP, rfl, b, q ++ [.proj i], hb, by simp [Addr.sub], by simp [Part.erase],
      hq.append (List.Forall₂.cons (show MatchPart (.proj i) (.proj i) from rfl) List.Forall₂.nil), ?_⟩
    show Held m₁ s₁ p.root b (q ++ [.proj i])
    unfold Held at hH ⊢
    have h1 : b.2.sub (q ++ [.proj i]) = (b.2.sub q).sub [.proj i] := by simp [Addr.sub]
    rw [h1, rd_sub]
    have h2 : part s₁ p.root ((q ++ [Part.proj i]).map Part.erase) =
        (part s₁ p.root (q.map Part.erase)).bind (fun u => u.get [.proj i]) := by
      unfold part
      cases s₁[p.root]? with
      | none => rfl
      | some v => simp only [List.map_append, get_append]; rfl
    rw [h2, ← hH]
    cases rd m₁.cells (b.2.sub q) with
    | none => rfl
    | some u =>
      simp only [Option.bind_some, Option.map_some]
      cases u with
      | int k => simp [erase_int, Val.get]
      | arr t fs => simp [erase_arr, Val.get]
      | tup fs =>
        simp only [erase_tup, Val.get, List.getElem?_map]
        cases fs[i]? with
        | none => rfl
        | some f => simp
  | index p e =>
    simp only [Place.check, Bool.and_eq_true] at hc
    simp only [Place.stable, Bool.and_eq_true] at hs
    simp only [runPlace, evalPlace]
    refine (ih.place E m s p hI hc.1 hs.1.1).bind ?_
    rintro ⟨a, m₁⟩ ⟨⟨x, q'⟩, s₁⟩ - - ⟨hP, hx, b, q, hb, ha, hq', hq, hH⟩
    simp only at hx ha hq' hP hH
    subst hx; subst ha; subst hq'
    refine (ih.exp E m₁ s₁ e hP.inv hc.2 hs.1.2).bind ?_
    rintro ⟨k, m₂⟩ ⟨k', s₂⟩ hrun - ⟨hk, hP₂⟩
    simp only at hk hP₂
    subst hk
    have hH₂ := hH.keep hP.inv hP₂ hb hq (stable_imp hs.2)
    have hT : Post E (fun o => (Place.index p e).mayWrite o) m m₂ s₂ :=
      hP.trans hP₂ (fun o ho => by simpa [Place.mayWrite] using ho)
    unfold Held at hH₂
    have hread : m₂.read (b.2.sub q) = rd m₂.cells (b.2.sub q) := rfl
    simp only [hread]
    cases k with
    | tup fs => rfl
    | arr t fs => rfl
    | int k =>
      cases hr : rd m₂.cells (b.2.sub q) with
      | none =>
        rw [hr] at hH₂
        simp only [← hH₂, Option.map_none]
        rfl
      | some u =>
        rw [hr] at hH₂
        simp only [← hH₂, Option.map_some]
        cases u with
        | int j => simp only [erase_int]; rfl
        | tup fs => simp only [erase_tup]; rfl
        | arr t fs =>
          simp only [erase_arr, List.length_map]
          cases hel : element fs.length k with
          | none => rfl
          | some i =>
            refine ⟨hT, rfl, b, q ++ [.idx t i], hb, by simp [Addr.sub], by simp [Part.erase],
              hq.append (List.Forall₂.cons ?_ List.Forall₂.nil), ?_⟩
            · cases e <;> try exact trivial
              simp only [indexPart]
              have := run_int hrun
              simp only [Val.int.injEq] at this
              subst this
              split
              · next hk => exact (element_int hel hk).symm
              · trivial
            · show Held m₂ s₂ p.root b (q ++ [.idx t i])
              unfold Held
              have h1 : b.2.sub (q ++ [.idx t i]) = (b.2.sub q).sub [.idx t i] := by
                simp [Addr.sub]
              rw [h1, rd_sub, hr]
              have h2 : part s₂ p.root ((q ++ [Part.idx t i]).map Part.erase) =
                  (part s₂ p.root (q.map Part.erase)).bind (fun u => u.get [.idx () i]) := by
                unfold part
                cases s₂[p.root]? with
                | none => rfl
                | some v => simp only [List.map_append, get_append]; rfl
              rw [h2, ← hH₂]
              simp only [Option.bind_some, Option.map_some, erase_arr, Val.get, if_true,
                List.getElem?_map]
              cases fs[i]? with
              | none => rfl
              | some f => simp [get_nil]

theorem sim_args {P : List Fn} {n : Nat} (ih : Sim P n) (E : Env) (m : Mem)
    (s : List (Val Unit)) (muts : List SPath) (args : Args) (hI : Inv E m s)
    (hc : args.check P E.muts = true) (hs : args.stable = true) :
    Rel (ArgsR E m muts args) (runArgs P (n + 1) E m muts args) (evalArgs P (n + 1) s args) := by
  -- an argument which is evaluated into a temporary
  have tmp : ∀ (e : Exp) (rest : Args) (mw : SPath → Bool) (m₁ : Mem) (s₁ : List (Val Unit))
      (v : Val Unit), Post E mw m m₁ s₁ →
      (∀ o, (Args.cons false e rest).mayWrite o = false → mw o = false) →
      rest.check P E.muts = true → rest.stable = true →
      Rel (ArgsR E m muts (.cons false e rest))
        (runArgs P n E (m₁.alloc v) muts rest >>= fun r => .ok ((m₁.next, []) :: r.1, r.2))
        (evalArgs P n s₁ rest >>= fun r => .ok (.val v :: r.1, r.2)) := by
    intro e rest mw m₁ s₁ v hP hw hc hs
    refine (ih.args E (m₁.alloc v) s₁ muts rest (Post.alloc (mw := fun _ => false) hP.inv v).inv hc
      hs).bind ?_
    rintro ⟨as, m₂⟩ ⟨vs, s₂⟩ - - ⟨hP₂, hA⟩
    simp only at hP₂ hA
    have hcell : m₂.cells m₁.next = v.fresh m₁.next := by
      have h1 : rd m₂.cells (m₁.next, []) = rd (m₁.alloc v).cells (m₁.next, []) := by
        refine frame_rd hP₂.frame (Nat.lt_succ_self _) ?_
        intro b hb
        obtain ⟨x, hx⟩ := List.mem_iff_getElem?.mp (mem_mutAddrs.mp hb)
        exact Or.inl (Nat.ne_of_lt (hP.inv.lt x _ hx))
      simp only [rd, get_nil, Option.some.injEq] at h1
      rw [h1]
      simp [Mem.alloc]
    refine ⟨?_, ?_⟩
    · refine hP.trans ((Post.alloc (mw := fun _ => false) hP.inv v).trans hP₂
        (mw := fun o => rest.mayWrite o) (fun o ho => ⟨rfl, ho⟩)) ?_
      intro o ho
      refine ⟨hw o ho, ?_⟩
      simp only [Args.mayWrite, or_false_iff] at ho
      exact ho.2
    · have h2 := ArgsRel.temp (e := e) (c := m₁.next) hP.le
        (lt_of_lt_of_le (Nat.lt_succ_self _) hP₂.le)
        (hA.weaken (n₀ := m.next) (hP.le.trans (Nat.le_succ _)))
      rw [hcell, erase_fresh] at h2
      exact h2
  cases args with
  | nil => exact ⟨Post.refl hI, .nil⟩
  | cons isMut e rest =>
    cases isMut with
    | true =>
      cases e with
      | load p =>
        simp only [Args.check, Bool.and_eq_true] at hc
        simp only [Args.stable, Bool.and_eq_true] at hs
        simp only [runArgs, evalArgs]
        refine (ih.place E m s p hI hc.1.1 hs.1.1).bind ?_
        rintro ⟨a, m₁⟩ ⟨⟨x, q'⟩, s₁⟩ - - ⟨hP, hx, b, q, hb, ha, hq', hq, hH⟩
        simp only at hx ha hq' hP hH
        subst hx; subst ha; subst hq'
        refine (ih.args E m₁ s₁ muts rest hP.inv hc.2 hs.1.2).bind ?_
        rintro ⟨as, m₂⟩ ⟨vs, s₂⟩ - - ⟨hP₂, hA⟩
        simp only at hP₂ hA
        refine ⟨hP.trans hP₂ (fun o ho => by simpa [Args.mayWrite, Exp.mayWrite] using ho), ?_⟩
        exact .isMut hb (mut_of_check hb hc.1.2) hq
          (hH.keep hP.inv hP₂ hb hq (stable_imp hs.2)) (hA.weaken hP.le)
      | _ => simp [Args.check] at hc
    | false =>
      simp only [Args.check, Bool.and_eq_true] at hc
      by_cases hl : ∃ p, e = .load p
      · obtain ⟨p, rfl⟩ := hl
        simp only [Exp.check] at hc
        simp only [Args.stable, Exp.stable, Bool.and_eq_true] at hs
        simp only [runArgs, evalArgs]
        refine (ih.place E m s p hI hc.1 hs.1).bind ?_
        rintro ⟨a, m₁⟩ ⟨⟨x, q'⟩, s₁⟩ - - ⟨hP, hx, b, q, hb, ha, hq', hq, hH⟩
        simp only at hx ha hq' hP hH
        subst hx; subst ha; subst hq'
        have hread : m₁.read (b.2.sub q) = rd m₁.cells (b.2.sub q) := rfl
        simp only [hread]
        unfold Held at hH
        cases hr : rd m₁.cells (b.2.sub q) with
        | none =>
          rw [hr] at hH
          simp only [← hH, Option.map_none]
          rfl
        | some M =>
          rw [hr] at hH
          simp only [← hH, Option.map_some]
          by_cases hsn : snapshot muts rest p = true
          · simp only [hsn, if_true]
            exact tmp (.load p) rest _ m₁ s₁ M.erase hP
              (fun o ho => by
                simp only [Args.mayWrite, Exp.mayWrite, or_false_iff] at ho
                exact ho.1) hc.2 hs.2
          · simp only [hsn]
            refine (ih.args E m₁ s₁ muts rest hP.inv hc.2 hs.2).bind ?_
            rintro ⟨as, m₂⟩ ⟨vs, s₂⟩ - - ⟨hP₂, hA⟩
            simp only at hP₂ hA
            refine ⟨hP.trans hP₂ (fun o ho => by simpa [Args.mayWrite, Exp.mayWrite] using ho), ?_⟩
            simp only [snapshot, Bool.not_eq_true, or_false_iff, List.any_eq_false] at hsn
            refine .held hb hq ?_ (fun w hw => by simpa using hsn.1 w hw) (hA.weaken hP.le)
            exact (hP₂.unch _ _ _ _ hb hsn.2 hq).trans hr
      · have hne : ∀ p, e ≠ .load p := fun p hp => hl ⟨p, hp⟩
        have e1 : runArgs P (n + 1) E m muts (.cons false e rest) =
            (do let (v, m) ← run P n E m e
                let (as, m') ← runArgs P n E (m.alloc v) muts rest
                .ok ((m.next, []) :: as, m')) := by
          cases e <;> first | exact absurd rfl (hne _) | simp only [runArgs]
        have e2 : evalArgs P (n + 1) s (.cons false e rest) =
            (do let (v, s) ← eval P n s e
                let (as, s) ← evalArgs P n s rest
                .ok (.val v :: as, s)) := by
          cases e <;> first | exact absurd rfl (hne _) | simp only [evalArgs]
        have hs' : e.stable = true ∧ rest.stable = true := by
          cases e <;> first | exact absurd rfl (hne _) | simpa [Args.stable] using hs
        rw [e1, e2]
        refine (ih.exp E m s e hI hc.1 hs'.1).bind ?_
        rintro ⟨v, m₁⟩ ⟨v', s₁⟩ - - ⟨hv, hP⟩
        simp only at hv hP
        subst hv
        exact tmp e rest _ m₁ s₁ v hP
          (fun o ho => by
            simp only [Args.mayWrite, or_false_iff] at ho
            exact ho.1) hc.2 hs'.2

theorem run_var {P : List Fn} {n : Nat} {E : Env} {m : Mem} {x : Nat} {r}
    (h : run P n E m (.load (.var x)) = .ok r) :
    ∃ b M, E[x]? = some b ∧ rd m.cells b.2 = some M ∧ r = (M.erase, m) := by
  cases n with
  | zero => cases h
  | succ n => cases n with
    | zero => cases h
    | succ n =>
      simp only [run, runPlace] at h
      cases hx : E[x]? with
      | none => rw [hx] at h; cases h
      | some b =>
        rw [hx] at h
        have h' : (match m.read b.2 with
          | some v => Except.ok (v.erase, m)
          | none => .error Err.noPlace) = .ok r := h
        cases hr : m.read b.2 with
        | none => rw [hr] at h'; cases h'
        | some M =>
          rw [hr] at h'
          exact ⟨b, M, rfl, hr, (Except.ok.inj h').symm⟩

/-- A new name. -/
theorem Inv.push {E : Env} {m : Mem} {s} (h : Inv E m s) {l : Bool × Addr} {M : Val Nat}
    (hl : l.2.1 < m.next) (hM : rd m.cells l.2 = some M)
    (ha : ∀ b ∈ E, Apart b l) : Inv (E ++ [l]) m (s ++ [M.erase]) where
  len := by simp [h.len]
  rel x b hb := by
    by_cases hx : x < E.length
    · rw [List.getElem?_append_left hx] at hb
      rw [List.getElem?_append_left (by rw [h.len]; exact hx)]
      exact h.rel x b hb
    · obtain ⟨hlt, _⟩ := List.getElem?_eq_some_iff.mp hb
      have hxe : x = E.length := by
        simp only [List.length_append, List.length_cons, List.length_nil] at hlt
        omega
      subst hxe
      rw [List.getElem?_append_right (le_refl _)] at hb
      simp only [Nat.sub_self, List.getElem?_cons_zero, Option.some.injEq] at hb
      subst hb
      refine ⟨hl, M, hM, ?_⟩
      rw [List.getElem?_append_right (by rw [h.len]), h.len]
      simp
  apart := by
    refine List.pairwise_append.mpr ⟨h.apart, List.pairwise_singleton _ _, ?_⟩
    intro b hb c hc
    rw [List.mem_singleton.mp hc]
    exact ha b hb

/-- The end of a scope. -/
theorem Post.pop {E : Env} {mw : SPath → Bool} {m m' : Mem} {s'} {l : Bool × Addr} {k : Nat}
    (h : Post (E ++ [l]) mw m m' s') (hk : k ≤ m.next) (hl : l.1 = true → k ≤ l.2.1) :
    Inv E m' s'.dropLast ∧
    EqOn k (wipe (mutAddrs E) m'.cells) (wipe (mutAddrs E) m.cells) ∧
    (∀ (x : Nat) (b : Bool × Addr) π q, E[x]? = some b → mw (x, π) = false → Matches π q →
      rd m'.cells (b.2.sub q) = rd m.cells (b.2.sub q)) := by
  have hget : ∀ (x : Nat) (b : Bool × Addr), E[x]? = some b → (E ++ [l])[x]? = some b := by
    intro x b hb
    rw [List.getElem?_append_left (List.getElem?_eq_some_iff.mp hb).1]
    exact hb
  refine ⟨⟨?_, ?_, ?_⟩, ?_, ?_⟩
  · have := h.inv.len
    simp only [List.length_append, List.length_cons, List.length_nil] at this
    simp [this]
  · intro x b hb
    obtain ⟨h1, M, h2, h3⟩ := h.inv.rel x b (hget x b hb)
    refine ⟨h1, M, h2, ?_⟩
    have hx := (List.getElem?_eq_some_iff.mp hb).1
    have hlen := h.inv.len
    simp only [List.length_append, List.length_cons, List.length_nil] at hlen
    rw [List.getElem?_dropLast, if_pos (by omega)]
    exact h3
  · exact (List.pairwise_append.mp h.inv.apart).1
  · have hf := h.frame.mono hk
    rw [mutAddrs_append, wipe_append, wipe_append] at hf
    obtain ⟨l1, l2⟩ := l
    cases l1 with
    | false => exact hf
    | true =>
      intro c hc
      have := hf c hc
      have hne : c ≠ l2.1 := Nat.ne_of_lt (lt_of_lt_of_le hc (hl rfl))
      simpa [mutAddrs, wipe, writeCells, hne] using this
  · intro x b π q hb ho hq
    exact h.unch x b π q (hget x b hb) ho hq

theorem sim_exp {P : List Fn} (hP : accepted P = true) (hS : stableProgram P = true) {n : Nat}
    (ih : Sim P n) (E : Env) (m : Mem) (s : List (Val Unit)) (e : Exp) (hI : Inv E m s)
    (hc : e.check P E.muts = true) (hs : e.stable = true) :
    Rel (ExpR E m e) (run P (n + 1) E m e) (eval P (n + 1) s e) := by
  cases e with
  | int k => exact ⟨rfl, Post.refl hI⟩
  | empty a =>
    cases a <;> exact ⟨rfl, Post.refl hI⟩
  | load p =>
    simp only [Exp.check] at hc
    simp only [Exp.stable] at hs
    simp only [run, eval]
    refine (ih.place E m s p hI hc hs).bind ?_
    rintro ⟨a, m₁⟩ ⟨⟨x, q'⟩, s₁⟩ - - ⟨hP, hx, b, q, hb, ha, hq', hq, hH⟩
    simp only at hx ha hq' hP hH
    subst hx; subst ha; subst hq'
    have hread : m₁.read (b.2.sub q) = rd m₁.cells (b.2.sub q) := rfl
    simp only [hread]
    unfold Held at hH
    cases hr : rd m₁.cells (b.2.sub q) with
    | none =>
      rw [hr] at hH
      simp only [← hH, Option.map_none]
      rfl
    | some M =>
      rw [hr] at hH
      simp only [← hH, Option.map_some]
      exact ⟨rfl, hP⟩
  | snoc c e =>
    simp only [Exp.check, Bool.and_eq_true] at hc
    simp only [Exp.stable, Bool.and_eq_true] at hs
    simp only [run, eval]
    refine (ih.exp E m s c hI hc.1 hs.1).bind ?_
    rintro ⟨v, m₁⟩ ⟨v', s₁⟩ - - ⟨hv, hP₁⟩
    simp only at hv hP₁
    subst hv
    refine (ih.exp E m₁ s₁ e hP₁.inv hc.2 hs.2).bind ?_
    rintro ⟨w, m₂⟩ ⟨w', s₂⟩ - - ⟨hw, hP₂⟩
    simp only at hw hP₂
    subst hw
    cases hu : ValueSem.snoc v w with
    | none => rfl
    | some u =>
      exact ⟨rfl, hP₁.trans hP₂ (fun o ho => by simpa [Exp.mayWrite] using ho)⟩
  | seq a b =>
    simp only [Exp.check, Bool.and_eq_true] at hc
    simp only [Exp.stable, Bool.and_eq_true] at hs
    simp only [run, eval]
    refine (ih.exp E m s a hI hc.1 hs.1).bind ?_
    rintro ⟨v, m₁⟩ ⟨v', s₁⟩ - - ⟨hv, hP₁⟩
    simp only at hP₁
    refine (ih.exp E m₁ s₁ b hP₁.inv hc.2 hs.2).imp ?_
    rintro ⟨w, m₂⟩ ⟨w', s₂⟩ ⟨hw, hP₂⟩
    exact ⟨hw, hP₁.trans hP₂ (fun o ho => by simpa [Exp.mayWrite] using ho)⟩
  | ite c a b =>
    simp only [Exp.check, Bool.and_eq_true] at hc
    simp only [Exp.stable, Bool.and_eq_true] at hs
    simp only [run, eval]
    refine (ih.exp E m s c hI hc.1.1 hs.1.1).bind ?_
    rintro ⟨v, m₁⟩ ⟨v', s₁⟩ - - ⟨hv, hP₁⟩
    simp only at hv hP₁
    subst hv
    cases v with
    | tup fs => rfl
    | arr t fs => rfl
    | int k =>
      by_cases hk : k = 0
      · simp only [hk, if_true]
        refine (ih.exp E m₁ s₁ b hP₁.inv hc.2 hs.2).imp ?_
        rintro ⟨w, m₂⟩ ⟨w', s₂⟩ ⟨hw, hP₂⟩
        refine ⟨hw, hP₁.trans hP₂ (fun o ho => ?_)⟩
        simp only [Exp.mayWrite, or_false_iff] at ho
        exact ⟨ho.1.1, ho.2⟩
      · simp only [hk, if_false]
        refine (ih.exp E m₁ s₁ a hP₁.inv hc.1.2 hs.1.2).imp ?_
        rintro ⟨w, m₂⟩ ⟨w', s₂⟩ ⟨hw, hP₂⟩
        refine ⟨hw, hP₁.trans hP₂ (fun o ho => ?_)⟩
        simp only [Exp.mayWrite, or_false_iff] at ho
        exact ⟨ho.1.1, ho.1.2⟩
  | assign p e =>
    simp only [Exp.check, Bool.and_eq_true] at hc
    simp only [Exp.stable, Bool.and_eq_true] at hs
    simp only [run, eval]
    refine (ih.place E m s p hI hc.1.1 hs.1.1).bind ?_
    rintro ⟨a, m₁⟩ ⟨⟨x, q'⟩, s₁⟩ - - ⟨hP₁, hx, b, q, hb, ha, hq', hq, hH⟩
    simp only at hx ha hq' hP₁ hH
    subst hx; subst ha; subst hq'
    refine (ih.exp E m₁ s₁ e hP₁.inv hc.2 hs.1.2).bind ?_
    rintro ⟨v, m₂⟩ ⟨v', s₂⟩ - - ⟨hv, hP₂⟩
    simp only at hv hP₂
    subst hv
    have hH₂ := hH.keep hP₁.inv hP₂ hb hq (stable_imp hs.2)
    have hread : m₂.read (b.2.sub q) = rd m₂.cells (b.2.sub q) := rfl
    simp only [hread]
    unfold Held at hH₂
    cases hr : rd m₂.cells (b.2.sub q) with
    | none =>
      rw [hr] at hH₂
      simp only [← hH₂, Option.map_none]
      rfl
    | some M =>
      rw [hr] at hH₂
      simp only [← hH₂, Option.map_some]
      refine ⟨rfl, ?_⟩
      have hW := Post.write hP₂.inv hb (mut_of_check hb hc.1.2) hq hr v
      refine (hP₁.trans hP₂ (mw := fun o => p.mayWrite o || e.mayWrite o)
        (fun o ho => or_false_iff.mp ho)).trans hW ?_
      intro o ho
      simp only [Exp.mayWrite, or_false_iff] at ho
      exact ⟨or_false_iff.mpr ⟨ho.1.2, ho.2⟩, ho.1.1⟩
  | bind isMut copy e b =>
    simp only [Exp.check, Bool.and_eq_true] at hc
    simp only [Exp.stable, Bool.and_eq_true] at hs
    simp only [run, eval]
    refine (ih.exp E m s e hI hc.1 hs.1).bind ?_
    rintro ⟨v, m₁⟩ ⟨v', s₁⟩ hrun - ⟨hv, hP₁⟩
    simp only at hv hP₁
    subst hv
    have fin : ∀ (l : Bool × Addr) (m₂ : Mem), l.1 = isMut → Post E (fun _ => false) m₁ m₂ s₁ →
        Inv (E ++ [l]) m₂ (s₁ ++ [v]) → (l.1 = true → m₁.next ≤ l.2.1) →
        Rel (ExpR E m (.bind isMut copy e b)) (run P n (E ++ [l]) m₂ b)
          (eval P n (s₁ ++ [v]) b >>= fun r => .ok (r.1, r.2.dropLast)) := by
      intro l m₂ hl hP₂ hI₂ hle
      have hcb : b.check P (Env.muts (E ++ [l])) = true := by
        have : Env.muts (E ++ [l]) = E.muts ++ [isMut] := by simp [Env.muts, hl]
        rw [this]
        exact hc.2
      have h3 := ih.exp (E ++ [l]) m₂ (s₁ ++ [v]) b hI₂ hcb hs.2
      have e1 : run P n (E ++ [l]) m₂ b = run P n (E ++ [l]) m₂ b >>= fun r => .ok r := by
        cases run P n (E ++ [l]) m₂ b <;> rfl
      rw [e1]
      refine h3.bind ?_
      rintro ⟨w, m₃⟩ ⟨w', s₃⟩ - - ⟨hw, hP₃⟩
      simp only at hw hP₃
      obtain ⟨i1, i2, i3⟩ := hP₃.pop hP₂.le hle
      refine ⟨hw, ?_⟩
      refine hP₁.trans (mw₂ := fun o => b.mayWrite o) (s₂ := s₃.dropLast) (m₂ := m₃) ?_
        (fun o ho => by simpa [Exp.mayWrite] using ho)
      exact ⟨i1, hP₂.le.trans hP₃.le, i2.trans hP₂.frame, fun x c π q hx ho hq =>
        (i3 x c π q hx ho hq).trans (hP₂.unch x c π q hx rfl hq)⟩
    cases hbo : (borrowed isMut copy (E.map (·.1)) e).bind (fun x => E[x]?) with
    | some l =>
      simp only
      obtain ⟨x, hx, hEx⟩ := Option.bind_eq_some_iff.mp hbo
      cases e with
      | load p => cases p with
        | var y =>
          simp only [borrowed] at hx
          split at hx
          · next hcond =>
            cases hx
            simp only [Bool.and_eq_true, Bool.not_eq_true', beq_iff_eq] at hcond
            obtain ⟨⟨hm, hcp⟩, hmut⟩ := hcond
            obtain ⟨b', M, hb', hM, hr⟩ := run_var hrun
            rw [hEx] at hb'
            cases hb'
            cases hr
            have hl1 : l.1 = false := by
              have := Env.muts_get hEx
              rw [Env.muts, hmut] at this
              exact (Option.some.inj this).symm
            subst hm
            refine fin (false, l.2) m rfl (Post.refl hP₁.inv) ?_ (by simp)
            refine hP₁.inv.push (hP₁.inv.lt x l hEx) hM ?_
            intro c hcE hor
            obtain ⟨z, hz⟩ := List.mem_iff_getElem?.mp hcE
            have hcm : c.1 = true := hor.resolve_right (by simp)
            by_cases hzx : z = x
            · subst hzx
              rw [hEx] at hz
              cases hz
              rw [hl1] at hcm
              cases hcm
            · have hd : Disj c.2 l.2 := apart_of hP₁.inv.apart hz hEx hzx (Or.inl hcm)
              exact hd
          · cases hx
        | _ => cases hx
      | _ => cases hx
    | none =>
      refine fin (isMut, (m₁.next, [])) (m₁.alloc v) rfl (Post.alloc hP₁.inv v) ?_
        (fun _ => le_refl _)
      have hA : Post E (fun _ => false) m₁ (m₁.alloc v) s₁ := Post.alloc hP₁.inv v
      have := hA.inv.push (l := (isMut, (m₁.next, []))) (M := v.fresh m₁.next)
        (Nat.lt_succ_self _) (by simp [rd, Mem.alloc, get_nil]) ?_
      · rwa [erase_fresh] at this
      · intro c hcE _
        obtain ⟨z, hz⟩ := List.mem_iff_getElem?.mp hcE
        exact Or.inl (Nat.ne_of_lt (hP₁.inv.lt z c hz))
  | call f args =>
    simp only [Exp.check, Bool.and_eq_true] at hc
    simp only [Exp.stable] at hs
    simp only [run, eval]
    refine (ih.args E m s args.muts args hI hc.2 hs).bind ?_
    rintro ⟨as, m₁⟩ ⟨vs, s₁⟩ - - ⟨hP₁, hA⟩
    simp only at hP₁ hA
    cases hf : P[f]? with
    | none => rw [hf] at hc; simp at hc
    | some fn =>
      rw [hf] at hc
      simp only [beq_iff_eq] at hc
      simp only [← hc.1.1]
      rcases hA.enter hP₁.inv.lt with ⟨h1, ws, h2, h3⟩ | ⟨h1, h2⟩
      · simp only [h1, if_true, h2]
        have hap := hA.apart hP₁.inv.apart hI.lt hc.1.2 (fun w hw => hw)
        have hIc := Inv.of_starts h3 hap
        have hfn := List.mem_of_getElem? hf
        have hcb : fn.body.check P (Env.muts (calleeEnv args as)) = true := by
          have h4 : Env.muts (calleeEnv args as) = fn.params := by
            rw [Env.muts, calleeEnv, List.map_fst_zip hA.flags_le, hc.1.1]
          rw [h4]
          exact List.all_eq_true.mp hP fn hfn
        have hsb := List.all_eq_true.mp hS fn hfn
        have e1 : run P n (args.flags.zip as) m₁ fn.body =
            run P n (args.flags.zip as) m₁ fn.body >>= fun r => .ok r := by
          cases run P n (args.flags.zip as) m₁ fn.body <;> rfl
        rw [e1]
        refine (ih.exp (calleeEnv args as) m₁ ws fn.body hIc hcb hsb).bind ?_
        rintro ⟨w, m₂⟩ ⟨w', s₂⟩ - - ⟨hw, hP₂⟩
        simp only at hw hP₂
        refine ⟨hw, ?_⟩
        have hcall := Post.call hP₁.inv hI.lt hA hc.1.2 (fun w hw => hw) h3 hP₂
        refine hP₁.trans hcall ?_
        intro o ho
        simp only [Exp.mayWrite, or_false_iff] at ho
        exact ⟨ho.2, ho.1⟩
      · simp only [h1, h2]
        rfl

theorem sim {P : List Fn} (hP : accepted P = true) (hS : stableProgram P = true) :
    ∀ n, Sim P n
  | 0 => ⟨fun _ _ _ _ _ _ _ => rfl, fun _ _ _ _ _ _ _ => rfl, fun _ _ _ _ _ _ _ _ => rfl⟩
  | n + 1 =>
    have ih := sim hP hS n
    ⟨sim_place ih, sim_exp hP hS ih, sim_args ih⟩

end Ferlium.ValueSem
