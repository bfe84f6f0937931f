import Verif.Model.Mir
import Mathlib.Tactic

/-! Simulation principles for the semantics of `Model/Mir.lean`. -/
namespace Ferlium.Mir

variable {V σ : Type} {W : World V σ} {f g : Body}

theorem run_add (m n : Nat) (c : Config V σ) : run W f (m + n) c = run W f n (run W f m c) := by
  induction m generalizing c with
  | zero => simp [run]
  | succ m ih =>
    rw [Nat.succ_add]
    simp only [run]
    exact ih _

theorem run_done (n : Nat) (x : Exit σ) : run W f n (.done x : Config V σ) = .done x := by
  induction n with
  | zero => rfl
  | succ n ih => simpa [run, step] using ih

theorem run_succ' (n : Nat) (c : Config V σ) : run W f (n + 1) c = step W f (run W f n c) := by
  rw [run_add]; rfl

/-- `c` never gets stuck. -/
def SafeFrom (W : World V σ) (f : Body) (c : Config V σ) : Prop := ∀ n, run W f n c ≠ .done .stuck

theorem SafeFrom.run {c : Config V σ} (h : SafeFrom W f c) (k : Nat) : SafeFrom W f (run W f k c) := by
  intro n hn
  exact h (k + n) (by rw [run_add]; exact hn)

theorem SafeFrom.step {c : Config V σ} (h : SafeFrom W f c) : SafeFrom W f (step W f c) := h.run 1

theorem safeFrom_start {w : σ} (h : Safe W f w) : SafeFrom W f (start f w) := fun n hn => h ⟨n, hn⟩

/-- A simulation which answers every step by any number of steps transports reached worlds and ends. -/
theorem sim_forward {W' : World V σ} (R : Config V σ → Config V σ → Prop)
    (hobs : ∀ c c', R c c' → c.world? = c'.world?)
    (hdone : ∀ x c', R (.done x) c' → c' = .done x)
    (hstep : ∀ c c', R c c' → ∃ k, R (step W f c) (run W' g k c')) {w : σ}
    (h0 : R (start f w) (start g w)) :
    (∀ w', Reaches W f w w' → Reaches W' g w w') ∧ (∀ x, Ends W f w x → Ends W' g w x) := by
  have key : ∀ n, ∃ k, R (run W f n (start f w)) (run W' g k (start g w)) := by
    intro n
    induction n with
    | zero => exact ⟨0, h0⟩
    | succ n ih =>
      obtain ⟨k, hk⟩ := ih
      obtain ⟨j, hj⟩ := hstep _ _ hk
      refine ⟨k + j, ?_⟩
      rw [run_succ', run_add]
      exact hj
  constructor
  · rintro w' ⟨n, hn⟩
    obtain ⟨k, hk⟩ := key n
    exact ⟨k, by rw [← hobs _ _ hk]; exact hn⟩
  · rintro x ⟨n, hn⟩
    obtain ⟨k, hk⟩ := key n
    rw [hn] at hk
    exact ⟨k, hdone _ _ hk⟩

/-- A simulation in both directions gives the same behaviour. -/
theorem sim_both (R : Config V σ → Config V σ → Prop)
    (hobs : ∀ c c', R c c' → c.world? = c'.world?)
    (hdone : ∀ x c', R (.done x) c' → c' = .done x)
    (hdone' : ∀ x c, R c (.done x) → c = .done x)
    (hstep : ∀ c c', R c c' → ∃ k, R (step W f c) (run W g k c'))
    (hstep' : ∀ c c', R c c' → ∃ k, R (run W f k c) (step W g c')) {w : σ}
    (h0 : R (start f w) (start g w)) : SameBehaviour W f g w := by
  obtain ⟨a1, a2⟩ := sim_forward R hobs hdone hstep h0
  obtain ⟨b1, b2⟩ := sim_forward (fun c' c => R c c') (fun c' c h => (hobs _ _ h).symm) hdone'
    (fun c' c h => hstep' c c' h) h0
  exact ⟨fun w' => ⟨a1 w', b1 w'⟩, fun x => ⟨a2 x, b2 x⟩⟩

theorem sameBehaviour_refl (w : σ) : SameBehaviour W f f w := ⟨fun _ => Iff.rfl, fun _ => Iff.rfl⟩

theorem SameBehaviour.trans {h : Body} {w : σ} (a : SameBehaviour W f g w) (b : SameBehaviour W g h w) :
    SameBehaviour W f h w :=
  ⟨fun w' => (a.1 w').trans (b.1 w'), fun x => (a.2 x).trans (b.2 x)⟩

theorem SameBehaviour.safe {w : σ} (a : SameBehaviour W f g w) (h : Safe W f w) : Safe W g w :=
  fun hg => h ((a.2 _).2 hg)

/-! ### States which agree except for private cells that are not live -/

/-- The states agree, except that private cells in `C` outside `L` may hold different contents. -/
structure Agree (C : Nat → Prop) (L : Nat → Prop) (s s' : St V σ) : Prop where
  world : s.world = s'.world
  env : ∀ r, s.env r = s'.env r ∨
    (C r ∧ ¬ L r ∧ (∃ c, s.env r = some (.cell c)) ∧ ∃ c, s'.env r = some (.cell c))

/-- Related outcomes of an operation: `R` after a success, `E` after an error. -/
inductive StepRel (R E : St V σ → St V σ → Prop) : Step V σ → Step V σ → Prop
  | ok {s s'} : R s s' → StepRel R E (.ok s) (.ok s')
  | error {s s'} : E s s' → StepRel R E (.error s) (.error s')
  | halt w : StepRel R E (.halt w) (.halt w)
  | stuck : StepRel R E .stuck .stuck

variable {C L L' : Nat → Prop} {s s' : St V σ}

theorem Agree.mono (h : Agree C L s s') (hl : ∀ r, C r → L' r → L r) : Agree C L' s s' :=
  ⟨h.world, fun r => (h.env r).imp id fun ⟨a, b, c⟩ => ⟨a, fun hr => b (hl r a hr), c⟩⟩

theorem Agree.refl : Agree C L s s := ⟨rfl, fun _ => Or.inl rfl⟩

theorem Agree.set (h : Agree C L s s') (r : Nat) (b : Option (Bind V)) : Agree C L (s.set r b) (s'.set r b) := by
  refine ⟨h.world, fun q => ?_⟩
  simp only [St.set]
  by_cases hq : q = r
  · subst hq; simp
  · simpa [Function.update_of_ne hq] using h.env q

theorem Agree.withWorld (h : Agree C L s s') (w : σ) : Agree C L { s with world := w } { s' with world := w } :=
  ⟨rfl, h.env⟩

theorem agree_env_eq (h : Agree C L s s') {r : Nat} (hr : C r → L r) : s.env r = s'.env r := by
  rcases h.env r with h | ⟨a, b, _⟩
  · exact h
  · exact absurd (hr a) b

theorem agree_exposeOne (h : Agree C L s s') {v : Value} (hv : ∀ r, v = .register r → C r → L r) :
    Agree C L (exposeOne W s v) (exposeOne W s' v) := by
  unfold exposeOne
  cases v with
  | register r =>
    have he := agree_env_eq h (hv r rfl)
    simp only [← he, ← h.world]
    split
    · refine ⟨rfl, fun q => ?_⟩
      by_cases hq : q = r
      · subst hq; simp
      · simpa [Function.update_of_ne hq] using h.env q
    · exact h
  | _ => exact h

theorem agree_exposeFrom {direct : Nat → Bool} (vs : List Value) : ∀ (i : Nat) {s s' : St V σ}, Agree C L s s' →
    (∀ j r, vs[j]? = some (.register r) → C r → direct (i + j) = true ∨ L r) →
    Agree C L (exposeFrom W direct i vs s) (exposeFrom W direct i vs s') := by
  induction vs with
  | nil => intro i s s' h _; exact h
  | cons v vs ih =>
    intro i s s' h hd
    simp only [exposeFrom]
    apply ih
    · split
      · exact h
      · rename_i hnd
        apply agree_exposeOne h
        intro r hr hc
        rcases hd 0 r (by simp [hr]) hc with h1 | h1
        · exact absurd h1 hnd
        · exact h1
    · intro j r hj hc
      have := hd (j + 1) r (by simpa using hj) hc
      rwa [show i + (j + 1) = i + 1 + j by omega] at this

theorem agree_argOf {reads : Bool} (h : Agree C L s s') {v : Value}
    (hv : ∀ r, v = .register r → C r → reads = false ∨ L r) : argOf W reads s v = argOf W reads s' v := by
  cases v with
  | register r =>
    simp only [argOf]
    rcases h.env r with he | ⟨hc, hl, ⟨c, h1⟩, c', h2⟩
    · rw [he]
    · rcases hv r rfl hc with h3 | h3
      · simp [h1, h2, h3]
      · exact absurd h3 hl
  | _ => rfl

theorem agree_argsFrom {reads : Nat → Bool} (h : Agree C L s s') (vs : List Value) : ∀ (i : Nat),
    (∀ j r, vs[j]? = some (.register r) → C r → reads (i + j) = false ∨ L r) →
    argsFrom W reads s i vs = argsFrom W reads s' i vs := by
  induction vs with
  | nil => intro i _; rfl
  | cons v vs ih =>
    intro i hd
    simp only [argsFrom]
    rw [agree_argOf (reads := reads i) h (fun r hr hc => hd 0 r (by simp [hr]) hc), ih (i + 1)]
    intro j r hj hc
    have := hd (j + 1) r (by simpa using hj) hc
    rwa [show i + (j + 1) = i + 1 + j by omega] at this

/-- Writing a cell makes the two states agree on it. -/
theorem agree_writeCell (h : Agree C L s s') (v : Option Value) (c : Option V) :
    Agree C (fun r => L r ∨ v = some (.register r)) (writeCell s v c) (writeCell s' v c) := by
  unfold writeCell
  rcases v with _ | v
  · exact h.mono (by rintro r _ (h | h); exacts [h, by cases h])
  cases v with
  | register r =>
    simp only []
    rcases h.env r with he | ⟨hc, hl, ⟨c1, h1⟩, c2, h2⟩
    · rw [← he]
      have keep : ∀ q, q ≠ r → (s.env q = s'.env q ∨ (C q ∧ ¬ (L q ∨ some (Value.register r) = some (.register q)) ∧
          (∃ c, s.env q = some (.cell c)) ∧ ∃ c, s'.env q = some (.cell c))) := by
        intro q hq
        refine (h.env q).imp id fun ⟨a, b, c⟩ => ⟨a, ?_, c⟩
        rintro (h | h)
        · exact b h
        · cases h; exact hq rfl
      split
      · refine ⟨h.world, fun q => ?_⟩
        by_cases hq : q = r
        · subst hq; simp [St.set]
        · simpa [St.set, Function.update_of_ne hq] using keep q hq
      · refine ⟨h.world, fun q => ?_⟩
        by_cases hq : q = r
        · subst hq; exact Or.inl he
        · exact keep q hq
    · simp only [h1, h2]
      refine ⟨h.world, fun q => ?_⟩
      by_cases hq : q = r
      · subst hq; simp [St.set]
      · simp only [St.set, Function.update_of_ne hq]
        refine (h.env q).imp id fun ⟨a, b, c⟩ => ⟨a, ?_, c⟩
        rintro (h | h)
        · exact b h
        · cases h; exact hq rfl
  | _ => exact h.mono (by rintro r _ (h | h); exacts [h, by cases h])

theorem agree_consumeSource (h : Agree C L s s') {v : Option Value} (hv : ∀ r, v = some (.register r) → C r → L r) :
    Agree C L (consumeSource W s v) (consumeSource W s' v) := by
  unfold consumeSource
  rcases v with _ | v
  · exact h
  cases v with
  | register r =>
    have he := agree_env_eq h (hv r rfl)
    simp only [← he, ← h.world]
    split
    · refine ⟨rfl, fun q => ?_⟩
      by_cases hq : q = r
      · subst hq; simp
      · simpa [Function.update_of_ne hq] using h.env q
    · exact h
  | _ => exact h

theorem agree_bindResult (h : Agree C L s s') (op : Op) (v : Option V) :
    Agree C L (bindResult op v s) (bindResult op v s') := by
  unfold bindResult
  split
  · exact h.set _ _
  · exact h.set _ _
  · exact h

theorem agree_bindOut (h : Agree C L s s') (op : Op) (v : Option V) :
    Agree C L (bindOut op v s) (bindOut op v s') := by
  unfold bindOut
  split
  · split
    · exact h.set _ _
    · exact h
  · exact agree_bindResult h _ _

/-- Is the register the operand which the operation overwrites? -/
def Writes (op : Op) (r : Nat) : Prop := ∃ i, op.writeIndex = some i ∧ op.operands[i]? = some (.register r)

theorem agree_worldOp (h : Agree C L s s') (op : Op) (args : List (Arg V)) :
    StepRel (Agree C fun r => L r ∨ Writes op r) (Agree C L) (worldOp W op args s) (worldOp W op args s') := by
  unfold worldOp
  rw [← h.world]
  cases W.exec op.kind args s.world with
  | ok w result written =>
    refine .ok (agree_bindOut ?_ _ _)
    have h1 : Agree C L (applyMove op { s with world := w }) (applyMove op { s' with world := w }) := by
      unfold applyMove
      split
      · exact (agree_writeCell (h.withWorld w) _ _).mono fun r _ hr => Or.inl hr
      · exact h.withWorld w
    unfold applyWrite
    split
    · rename_i i hi
      refine (agree_writeCell h1 _ _).mono ?_
      rintro r _ (hr | ⟨j, hj, hr⟩)
      · exact Or.inl hr
      · rw [hi] at hj; cases hj
        exact Or.inr hr
    · rename_i hi
      refine h1.mono ?_
      rintro r _ (hr | ⟨j, hj, hr⟩)
      · exact hr
      · rw [hi] at hj; cases hj
  | error w => exact .error (h.withWorld w)
  | halt w => exact .halt w

theorem store_writeIndex {op : Op} (h : op.kind = .store) : op.writeIndex = some 1 := by simp [Op.writeIndex, h]

theorem agree_execArgs (h : Agree C L s s') (op : Op) (args : List (Arg V))
    (hs : op.kind = .store → ∀ r, op.operands[0]? = some (.register r) → C r → L r)
    (hw : ∀ r, Writes op r → C r → L r ∨ op.kind = .store ∨ op.kind = .memcpy ∨ ∃ t v, op.kind = .call t v) :
    StepRel (Agree C fun r => L r ∨ Writes op r) (Agree C L) (execArgs W op args s) (execArgs W op args s') := by
  have hnw : (op.kind = .load ∨ op.kind = .compareEqual) → ∀ r, C r → L r ∨ Writes op r → L r := by
    rintro hk r hc (hr | hr)
    · exact hr
    · rcases hw r hr hc with h1 | h1 | h1 | ⟨t, v, h1⟩
      · exact h1
      all_goals rcases hk with hk | hk <;> rw [hk] at h1 <;> cases h1
  unfold execArgs
  rw [← h.world]
  split
  · rename_i hk
    exact .ok ((agree_bindResult h _ _).mono (hnw (Or.inl hk)))
  · exact .stuck
  · rename_i hk
    split
    · exact .ok ((agree_bindResult h _ _).mono (hnw (Or.inr hk)))
    · exact .stuck
  · rename_i hk
    split
    · exact .ok ((agree_bindResult h _ _).mono (hnw (Or.inr hk)))
    · exact .stuck
  · exact .stuck
  · rename_i hk
    refine .ok ((agree_writeCell (agree_consumeSource h (hs hk)) _ _).mono ?_)
    rintro r _ (hr | ⟨i, hi, hr⟩)
    · exact Or.inl hr
    · rw [store_writeIndex hk] at hi
      cases hi
      exact Or.inr hr
  · exact agree_worldOp h _ _

/-- An operation keeps two states in agreement if it touches the differing cells only by overwriting them. -/
theorem agree_execOp {direct : Nat → Bool} (h : Agree C L s s') (op : Op)
    (hd : ∀ i r, op.operands[i]? = some (.register r) → C r →
      L r ∨ (direct i = true ∧ op.writeIndex = some i)) :
    StepRel (Agree C fun r => L r ∨ Writes op r) (Agree C L) (execOp W direct op s) (execOp W direct op s') := by
  have h1 : Agree C L (exposeFrom W direct 0 op.operands s) (exposeFrom W direct 0 op.operands s') := by
    apply agree_exposeFrom _ _ h
    intro j r hj hc
    rcases hd j r hj hc with h1 | ⟨h1, _⟩
    · exact Or.inr h1
    · exact Or.inl (by simpa using h1)
  have hr : ∀ i, op.writeIndex = some i → op.readsWhole i = false := by
    intro i hi
    simp only [Op.writeIndex] at hi
    simp only [Op.readsWhole]
    split at hi
    · rename_i hk; simp [hk]
    · rename_i hk; cases hi; simp [hk]
    · rename_i hk; simp [hk]
    · cases hi
  unfold execOp
  simp only []
  rw [agree_argsFrom h1 op.operands 0 (by
    intro j r hj hc
    rcases hd j r hj hc with h2 | ⟨_, h2⟩
    · exact Or.inr h2
    · exact Or.inl (by simpa using hr j h2))]
  split
  · exact .stuck
  · refine agree_execArgs h1 _ _ ?_ ?_
    · intro hk r hop hc
      rcases hd 0 r hop hc with h2 | ⟨_, h2⟩
      · exact h2
      · rw [store_writeIndex hk] at h2; cases h2
    · rintro r ⟨i, hi, _⟩ _
      right
      simp only [Op.writeIndex] at hi
      split at hi
      · rename_i hk; exact Or.inl hk
      · rename_i hk; exact Or.inr (Or.inl hk)
      · rename_i hk; exact Or.inr (Or.inr ⟨_, _, hk⟩)
      · cases hi

/-! ### Invariants on the bindings of registers -/

/-- The operation keeps a property of bindings. -/
structure Keeps (P : Nat → Option (Bind V) → Prop) (direct : Nat → Bool) (op : Op) : Prop where
  unbound : ∀ r, P r none
  content : ∀ r c c', P r (some (.cell c)) → P r (some (.cell c'))
  exposed : ∀ i r c v, op.operands[i]? = some (.register r) → direct i = false → P r (some (.cell c)) →
    P r (some (.value v false))
  result : ∀ r v, op.result = some r → (∀ ty, op.kind ≠ .alloca ty) → P r (some (.value v op.owned))
  alloca : ∀ r ty, op.result = some r → op.kind = .alloca ty → P r (some (.cell none))

/-- The property holds for all bindings. -/
def AllBind (P : Nat → Option (Bind V) → Prop) (s : St V σ) : Prop := ∀ r, P r (s.env r)

variable {P : Nat → Option (Bind V) → Prop} {direct : Nat → Bool} {op : Op}

theorem AllBind.set (h : AllBind P s) {r : Nat} {b : Option (Bind V)} (hb : P r b) : AllBind P (s.set r b) := by
  intro q
  simp only [St.set]
  by_cases hq : q = r
  · subst hq; simpa using hb
  · simpa [Function.update_of_ne hq] using h q

theorem allBind_exposeOne (h : AllBind P s) {v : Value}
    (hv : ∀ r c w, v = .register r → P r (some (.cell c)) → P r (some (.value w false))) :
    AllBind P (exposeOne W s v) := by
  unfold exposeOne
  cases v with
  | register r =>
    simp only []
    split
    · rename_i c hc
      intro q
      by_cases hq : q = r
      · subst hq
        simpa using hv q c _ rfl (hc ▸ h q)
      · simpa [Function.update_of_ne hq] using h q
    · exact h
  | _ => exact h

theorem allBind_exposeFrom (vs : List Value) : ∀ (i : Nat) {s : St V σ}, AllBind P s →
    (∀ j r c w, vs[j]? = some (.register r) → direct (i + j) = false → P r (some (.cell c)) →
      P r (some (.value w false))) → AllBind P (exposeFrom W direct i vs s) := by
  induction vs with
  | nil => intro i s h _; exact h
  | cons v vs ih =>
    intro i s h hd
    simp only [exposeFrom]
    apply ih
    · split
      · exact h
      · rename_i hnd
        exact allBind_exposeOne h fun r c w hr hc => hd 0 r c w (by simp [hr]) (by simpa using hnd) hc
    · intro j r c w hj hdj hc
      refine hd (j + 1) r c w (by simpa using hj) ?_ hc
      rwa [show i + (j + 1) = i + 1 + j by omega]

theorem allBind_writeCell (h : AllBind P s) (hk : ∀ r c c', P r (some (.cell c)) → P r (some (.cell c')))
    (v : Option Value) (c : Option V) : AllBind P (writeCell s v c) := by
  unfold writeCell
  split
  · rename_i r
    split
    · rename_i c' hc
      exact h.set (hk r c' c (hc ▸ h r))
    · exact h
  · exact h

theorem allBind_consumeSource (h : AllBind P s) (hn : ∀ r, P r none) (v : Option Value) :
    AllBind P (consumeSource W s v) := by
  unfold consumeSource
  split
  · rename_i r
    split
    · intro q
      by_cases hq : q = r
      · subst hq; simpa using hn q
      · simpa [Function.update_of_ne hq] using h q
    · exact h
  · exact h

theorem allBind_bindResult (h : AllBind P s) (hn : ∀ r, P r none)
    (hr : ∀ r v, op.result = some r → P r (some (.value v op.owned))) (v : Option V) :
    AllBind P (bindResult op v s) := by
  unfold bindResult
  split
  · rename_i r v hop
    exact h.set (hr r v hop)
  · exact h.set (hn _)
  · exact h

/-- The property holds after the operation. -/
def StepAll (P : Nat → Option (Bind V) → Prop) : Step V σ → Prop
  | .ok s => AllBind P s
  | .error s => AllBind P s
  | _ => True

theorem allBind_execOp (hP : Keeps P direct op) (h : AllBind P s) : StepAll P (execOp W direct op s) := by
  have h1 : AllBind P (exposeFrom W direct 0 op.operands s) :=
    allBind_exposeFrom _ _ h fun j r c w hj hd hc => hP.exposed j r c w hj (by simpa using hd) hc
  unfold execOp
  simp only []
  split
  · trivial
  rename_i args _
  generalize exposeFrom W direct 0 op.operands s = s1 at h1
  unfold execArgs
  have hres : ∀ v, (∀ ty, op.kind ≠ .alloca ty) → AllBind P (bindResult op v s1) := fun v hk =>
    allBind_bindResult h1 hP.unbound (fun r v hr => hP.result r v hr hk) v
  split
  · exact hres _ (by intro ty h'; simp_all)
  · trivial
  · split
    · exact hres _ (by intro ty h'; simp_all)
    · trivial
  · split
    · exact hres _ (by intro ty h'; simp_all)
    · trivial
  · trivial
  · exact allBind_writeCell (allBind_consumeSource h1 hP.unbound _) hP.content _ _
  · unfold worldOp
    split
    · rename_i w result written _
      have h2 : AllBind P (applyWrite op written (applyMove op { s1 with world := w })) := by
        have h3 : AllBind P (applyMove op { s1 with world := w }) := by
          unfold applyMove
          split
          · exact allBind_writeCell (s := { s1 with world := w }) h1 hP.content _ _
          · exact h1
        unfold applyWrite
        split
        · exact allBind_writeCell h3 hP.content _ _
        · exact h3
      simp only [StepAll]
      unfold bindOut
      split
      · rename_i ty hk
        split
        · rename_i r hr
          exact h2.set (hP.alloca r ty hr hk)
        · exact h2
      · rename_i hk
        exact allBind_bindResult h2 hP.unbound (fun r v hr => hP.result r v hr hk) _
    · exact h1
    · trivial

/-- A property kept by all operations and terminators of a body holds throughout its executions. -/
structure BodyKeeps (P : Nat → Option (Bind V) → Prop) (f : Body) : Prop where
  ops : ∀ b ∈ f, ∀ op ∈ b.ops, Keeps P op.direct op
  invokes : ∀ b ∈ f, ∀ op n e, b.term = .invoke op n e → Keeps P (fun _ => false) op
  yields : ∀ b ∈ f, ∀ r k, b.term = .yield (.register r) k → ∀ c w, P r (some (.cell c)) → P r (some (.value w false))

/-- The code of a configuration belongs to the body. -/
def CodeOf (f : Body) (ops : List Op) (t : Term) : Prop := ∃ b ∈ f, (∃ pre, b.ops = pre ++ ops) ∧ b.term = t

/-- A configuration of the body whose bindings satisfy the property. -/
def ConfigAll (P : Nat → Option (Bind V) → Prop) (f : Body) : Config V σ → Prop
  | .at ops t s => CodeOf f ops t ∧ AllBind P s
  | .done _ => True

theorem configAll_enter {b : Nat} (h : AllBind P s) : ConfigAll P f (enter f b s) := by
  unfold enter
  split
  · rename_i blk hb
    exact ⟨⟨blk, List.mem_of_getElem? hb, ⟨[], rfl⟩, rfl⟩, h⟩
  · trivial

theorem configAll_step (hf : BodyKeeps P f) {c : Config V σ} (h : ConfigAll P f c) :
    ConfigAll P f (step W f c) := by
  match c, h with
  | .done x, _ => trivial
  | .at (op :: ops) t s, ⟨⟨b, hb, ⟨pre, hpre⟩, ht⟩, h⟩ =>
    have h1 := allBind_execOp (W := W) (hf.ops b hb op (by rw [hpre]; simp)) h
    simp only [step]
    split
    · rename_i s' he
      rw [he] at h1
      exact ⟨⟨b, hb, ⟨pre ++ [op], by simp [hpre]⟩, ht⟩, h1⟩
    · trivial
    · trivial
    · trivial
  | .at [] t s, ⟨⟨b, hb, _, ht⟩, h⟩ =>
    simp only [step]
    unfold stepTerm
    split
    · exact configAll_enter h
    · split
      · exact configAll_enter h
      · exact configAll_enter h
      · trivial
    · rename_i op n e
      have h1 := allBind_execOp (W := W) (hf.invokes b hb op n e ht) h
      split
      · rename_i s' he; rw [he] at h1; exact configAll_enter h1
      · rename_i s' he; rw [he] at h1; exact configAll_enter h1
      · trivial
      · trivial
    · rename_i v k
      have h1 : AllBind P (exposeOne W s v) := allBind_exposeOne h (by
        rintro r c w rfl hc
        exact hf.yields b hb r k ht c w hc)
      simp only []
      split
      · split
        · exact configAll_enter (s := { exposeOne W s v with world := _ }) h1
        · trivial
      · trivial
    · trivial
    · trivial
    · trivial

theorem configAll_start (hn : ∀ r, P r none) (w : σ) : ConfigAll P f (start f w) :=
  configAll_enter fun r => hn r

end Ferlium.Mir
