import Verif.Proofs.CleanupTotal

/-!
C81: whatever the way out of a piece of code, what it holds is dropped and the accessors it began are resumed, the same in
compiled code and in the evaluator.
-/
namespace Ferlium.Cleanup

variable {σ : Type}

/-! ### Compiled code -/

/-- C81, compiled code: if wherever an accessor is called with temporaries to drop its arguments always complete, then the code
of a function ends exactly in the ways and states in which its body does, every scope being cleaned up, innermost first and in
the reverse order of declaration, on the normal way out, on `break`, `continue`, `return`, and on a failure, a failure of
cleanup included.  What is missing: arguments that do not complete, `C81_leak_violated`. -/
theorem C81_compiled_partial {W : World σ} {n : Node} {bs : List Block} (hc : Calm W n) (h : compile n = some bs) (s : σ)
    (o : Out) (s' : σ) :
    (∃ j, steps W bs j (startOf bs 0 s) = some (.fin o s')) ↔ ∃ k o', sem W k n s = some (o', s') ∧ o = ending o' :=
  compile_iff hc h s o s'

/-- C81: what the code does is unique. -/
theorem C81_unique {W : World σ} {bs : List Block} {c : Conf σ} {i j : Nat} {o o' : Out} {s s' : σ}
    (h : steps W bs i c = some (.fin o s)) (h' : steps W bs j c = some (.fin o' s')) : i = j ∧ o = o' ∧ s = s' :=
  steps_unique h h'

/-- C81: a body is compiled, the compiler does not panic and leaves no block open, if its loops have labels of their own, its
`break`s and `continue`s are inside their loops, and no scrutinee, returned value or argument of an accessor ends by itself.
See `C81_panic_violated` for those. -/
theorem C81_accepted {n : Node} (h : WF [] n) : ∃ bs, compile n = some bs :=
  compile_total h

/-- A loop that is left by `break` out of a block with a scoped access in it, and then returns. -/
example : WF [] (.block [1] (.cons (.loop 0 (.block [2, 3] (.cons (.op 4 true)
    (.cons (.case (.op 1 false) (.alt 0 (.brk 0 (.op 5 false)) (.alt 1 (.cont 0)
      (.other (.scoped [7] .nil (.cons (.op 8 true) .nil) 6 true (.op 9 true))))))
      .nil)))) (.cons (.ret (.op 2 true)) (.cons (.brk 5 (.op 1 false)) .nil)))) := by
  simp [WF, WFAll, WFArms, ends, endsAll]

/-! ### Consequences -/

/-- The state counts the accessors that are suspended: the calls and drops leave none behind, entering adds one if it succeeds,
and resuming takes one away, whether or not it fails. -/
structure Counts (W : World σ) (d : σ → Int) : Prop where
  act : ∀ a f s, d (W.go (.act a f) s).1 = d s
  drop : ∀ x s, d (W.go (.drop x) s).1 = d s
  enter : ∀ p f s, (W.go (.enter p f) s).2 = true → d (W.go (.enter p f) s).1 = d s + 1
  refused : ∀ p f s, (W.go (.enter p f) s).2 = false → d (W.go (.enter p f) s).1 = d s
  slide : ∀ p f s, d (W.go (.slide p f) s).1 = d s - 1

theorem close_drops {W : World σ} {d : σ → Int} (hd : Counts W d) : ∀ (xs : List Nat) (o : Out) (s : σ),
    (close W (xs.map .drop) o s).1 = o ∧ d (close W (xs.map .drop) o s).2 = d s
  | [], o, s => ⟨rfl, rfl⟩
  | x :: xs, o, s => by
    have hg : (W.go (.drop x) s).2 = true := go_infallible rfl s
    simp only [List.map_cons, close, hg, if_true]
    obtain ⟨h1, h2⟩ := close_drops hd xs o (W.go (.drop x) s).1
    exact ⟨h1, h2.trans (hd.drop x s)⟩

theorem leave_drops {W : World σ} {d : σ → Int} (hd : Counts W d) (xs : List Nat) (r : Out × σ) :
    (leave W (xs.map .drop) r).1 = r.1 ∧ d (leave W (xs.map .drop) r).2 = d r.2 := by
  unfold leave
  split
  · exact ⟨rfl, rfl⟩
  · rw [← List.map_reverse]
    exact close_drops hd _ _ _

theorem leave_slide {W : World σ} {d : σ → Int} (hd : Counts W d) (p : Nat) (f : Bool) (r : Out × σ)
    (h : (leave W [.slide p f] r).1 ≠ .poison) : r.1 ≠ .poison ∧ d (leave W [.slide p f] r).2 = d r.2 - 1 := by
  unfold leave at h ⊢
  split at h
  · rename_i hp; exact absurd hp h
  · rename_i hp
    rw [if_neg hp]
    refine ⟨hp, ?_⟩
    simp only [List.reverse_singleton, close] at h ⊢
    split
    · exact hd.slide p f r.2
    · split
      · exact hd.slide p f r.2
      · exact hd.slide p f r.2

theorem iterate_counts {d : σ → Int} {l : Nat} {body : σ → Option (Out × σ)}
    (hb : ∀ s o s', body s = some (o, s') → o ≠ .poison → d s' = d s) :
    ∀ (k : Nat) (s : σ) (o : Out) (s' : σ), iterate l body k s = some (o, s') → o ≠ .poison → d s' = d s
  | 0, s, o, s', h, _ => by simp [iterate] at h
  | k + 1, s, o, s', h, ho => by
    simp only [iterate] at h
    split at h
    · cases h
    · rename_i s1 h1
      exact (iterate_counts hb k s1 o s' h ho).trans (hb _ _ _ h1 (by simp))
    · rename_i l' s1 h1
      split at h
      · exact (iterate_counts hb k s1 o s' h ho).trans (hb _ _ _ h1 (by simp))
      · cases h; exact hb _ _ _ h1 (by simp)
    · rename_i l' s1 h1
      split at h
      · cases h; exact hb _ _ _ h1 (by simp)
      · cases h; exact hb _ _ _ h1 (by simp)
    · rename_i r h1 _ _ h2
      cases h
      exact hb _ _ _ h2 ho

theorem andThen_counts {d : σ → Int} {s : σ} {r : Option (Out × σ)} {next : σ → Option (Out × σ)}
    (h1 : ∀ o s', r = some (o, s') → o ≠ .poison → d s' = d s)
    (h2 : ∀ s1 o s', next s1 = some (o, s') → o ≠ .poison → d s' = d s1) {o : Out} {s' : σ}
    (h : andThen r next = some (o, s')) (ho : o ≠ .poison) : d s' = d s := by
  match r, h, h1 with
  | none, h, _ => cases h
  | some (.done, s1), h, h1 => exact (h2 s1 o s' h ho).trans (h1 _ _ rfl (by simp))
  | some (.brk l, s1), h, h1 => exact h1 _ _ h ho
  | some (.cont l, s1), h, h1 => exact h1 _ _ h ho
  | some (.ret, s1), h, h1 => exact h1 _ _ h ho
  | some (.fail, s1), h, h1 => exact h1 _ _ h ho
  | some (.poison, s1), h, h1 => exact h1 _ _ h ho

mutual
theorem sem_counts {W : World σ} {d : σ → Int} (hd : Counts W d) (k : Nat) : ∀ (n : Node) (s : σ) (o : Out) (s' : σ),
    sem W k n s = some (o, s') → o ≠ .poison → d s' = d s
  | .op a f, s, o, s', h, _ => by
    simp only [sem, Option.some.injEq, Prod.mk.injEq] at h
    rw [← h.2]
    exact hd.act a f s
  | .block xs body, s, o, s', h, ho => by
    simp only [sem, Option.map_eq_some_iff] at h
    obtain ⟨r, h1, h2⟩ := h
    obtain ⟨k1, k2⟩ := leave_drops hd xs r
    rw [h2] at k1 k2
    exact k2.trans (semAll_counts hd k body s r.1 r.2 h1 (by rw [← k1]; exact ho))
  | .case n arms, s, o, s', h, ho => by
    simp only [sem] at h
    exact andThen_counts (fun o s' => sem_counts hd k n s o s') (fun s1 o s' => semArms_counts hd k arms s1 o s') h ho
  | .loop l body, s, o, s', h, ho => by
    simp only [sem] at h
    exact iterate_counts (fun s o s' => sem_counts hd k body s o s') k s o s' h ho
  | .brk l v, s, o, s', h, ho => by
    simp only [sem] at h
    exact andThen_counts (next := fun s1 => some (.brk l, s1)) (fun o s' => sem_counts hd k v s o s')
      (fun s1 o s' h _ => by cases h; rfl) h ho
  | .cont l, s, o, s', h, _ => by
    simp only [sem, Option.some.injEq, Prod.mk.injEq] at h
    rw [← h.2]
  | .ret v, s, o, s', h, ho => by
    simp only [sem] at h
    exact andThen_counts (next := fun s1 => some (.ret, s1)) (fun o s' => sem_counts hd k v s o s')
      (fun s1 o s' h _ => by cases h; rfl) h ho
  | .scoped xs pre args p f body, s, o, s', h, ho => by
    simp only [sem, Option.map_eq_some_iff] at h
    obtain ⟨r, h1, h2⟩ := h
    obtain ⟨k1, k2⟩ := leave_drops hd xs r
    rw [h2] at k1 k2
    refine k2.trans ?_
    refine andThen_counts (fun o s' => semAll_counts hd k pre s o s') ?_ h1 (by rw [← k1]; exact ho)
    intro s1 o1 s1' h3 ho1
    refine andThen_counts (next := fun s2 =>
      if (W.go (.enter p f) s2).2 then (sem W k body (W.go (.enter p f) s2).1).map (leave W [.slide p f])
      else some (.fail, (W.go (.enter p f) s2).1)) (fun o s' => semAll_counts hd k args s1 o s') ?_ h3 ho1
    intro s2 o2 s2' h4 ho2
    cases hg : (W.go (.enter p f) s2).2 with
    | true =>
      rw [hg] at h4
      simp only [if_true, Option.map_eq_some_iff] at h4
      obtain ⟨q, h5, h6⟩ := h4
      obtain ⟨m1, m2⟩ := leave_slide hd p f q (by rw [h6]; exact ho2)
      rw [h6] at m2
      have := sem_counts hd k body _ q.1 q.2 h5 m1
      have := hd.enter p f s2 hg
      simp only at m2
      omega
    | false =>
      rw [hg] at h4
      simp only [Bool.false_eq_true, if_false, Option.some.injEq, Prod.mk.injEq] at h4
      rw [← h4.2]
      exact hd.refused p f s2 hg

theorem semAll_counts {W : World σ} {d : σ → Int} (hd : Counts W d) (k : Nat) : ∀ (ns : Nodes) (s : σ) (o : Out) (s' : σ),
    semAll W k ns s = some (o, s') → o ≠ .poison → d s' = d s
  | .nil, s, o, s', h, _ => by
    simp only [semAll, Option.some.injEq, Prod.mk.injEq] at h
    rw [← h.2]
  | .cons n rest, s, o, s', h, ho => by
    simp only [semAll] at h
    exact andThen_counts (fun o s' => sem_counts hd k n s o s') (fun s1 o s' => semAll_counts hd k rest s1 o s') h ho

theorem semArms_counts {W : World σ} {d : σ → Int} (hd : Counts W d) (k : Nat) : ∀ (arms : Arms) (s : σ) (o : Out) (s' : σ),
    semArms W k arms s = some (o, s') → o ≠ .poison → d s' = d s
  | .other n, s, o, s', h, ho => by
    simp only [semArms] at h
    exact sem_counts hd k n s o s' h ho
  | .alt t n rest, s, o, s', h, ho => by
    simp only [semArms] at h
    split at h
    · exact sem_counts hd k n s o s' h ho
    · exact semArms_counts hd k rest s o s' h ho
end

/-- C81: every accessor begun in a function has been resumed when its code ends, whether it returns or fails, unless execution
is poisoned.  What is missing: as for `C81_compiled_partial`. -/
theorem C81_resumed_partial {W : World σ} {d : σ → Int} (hd : Counts W d) {n : Node} {bs : List Block} (hc : Calm W n)
    (h : compile n = some bs) {j : Nat} {s s' : σ} {o : Out} (hj : steps W bs j (startOf bs 0 s) = some (.fin o s'))
    (ho : o ≠ .poison) : d s' = d s := by
  obtain ⟨k, o', h1, h2⟩ := (compile_iff hc h s o s').1 ⟨j, hj⟩
  refine sem_counts hd k n s o' s' h1 ?_
  rintro rfl
  exact ho h2

/-- Which locals hold something: `drop` empties its local and fills none. -/
structure Holds (W : World σ) (live : Nat → σ → Prop) : Prop where
  drop : ∀ x s, ¬ live x (W.go (.drop x) s).1
  keep : ∀ x y s, ¬ live y s → ¬ live y (W.go (.drop x) s).1

theorem close_holds {W : World σ} {live : Nat → σ → Prop} (hl : Holds W live) : ∀ (xs : List Nat) (o : Out) (s : σ),
    (close W (xs.map .drop) o s).1 = o ∧ (∀ x ∈ xs, ¬ live x (close W (xs.map .drop) o s).2) ∧
      ∀ y, ¬ live y s → ¬ live y (close W (xs.map .drop) o s).2
  | [], o, s => ⟨rfl, by simp, fun _ h => h⟩
  | x :: xs, o, s => by
    have hg : (W.go (.drop x) s).2 = true := go_infallible rfl s
    simp only [List.map_cons, close, hg, if_true]
    obtain ⟨h1, h2, h3⟩ := close_holds hl xs o (W.go (.drop x) s).1
    refine ⟨h1, ?_, fun y hy => h3 y (hl.keep x y s hy)⟩
    intro y hy
    rcases List.mem_cons.1 hy with rfl | hy
    · exact h3 y (hl.drop y s)
    · exact h2 y hy

/-- C81: when the code of a function whose body is a block ends, whether it returns or fails, none of the locals of the block
holds anything, unless execution is poisoned.  What is missing: as for `C81_compiled_partial`. -/
theorem C81_dropped_partial {W : World σ} {live : Nat → σ → Prop} (hl : Holds W live) {xs : List Nat} {body : Nodes}
    {bs : List Block} (hc : CalmAll W body) (h : compile (.block xs body) = some bs) {j : Nat} {s s' : σ} {o : Out}
    (hj : steps W bs j (startOf bs 0 s) = some (.fin o s')) (ho : o ≠ .poison) : ∀ x ∈ xs, ¬ live x s' := by
  obtain ⟨k, o', h1, h2⟩ := (compile_iff (n := .block xs body) hc h s o s').1 ⟨j, hj⟩
  simp only [sem, Option.map_eq_some_iff] at h1
  obtain ⟨r, h3, h4⟩ := h1
  unfold leave at h4
  split at h4
  · rename_i hp
    subst h4
    simp only at hp
    subst hp
    exact absurd h2 ho
  · rw [← List.map_reverse] at h4
    obtain ⟨_, k2, _⟩ := close_holds hl xs.reverse r.1 r.2
    rw [h4] at k2
    intro x hx
    exact k2 x (by simpa using hx)

/-! ### The evaluator -/

mutual
/-- Wherever an accessor is called with locals to drop, its arguments and itself do not fail. -/
def Prompt (W : World σ) : Node → Prop
  | .op _ _ => True
  | .block _ body => PromptAll W body
  | .case n arms => Prompt W n ∧ PromptArms W arms
  | .loop _ body => Prompt W body
  | .brk _ v => Prompt W v
  | .cont _ => True
  | .ret v => Prompt W v
  | .scoped xs pre args p f body => PromptAll W pre ∧ PromptAll W args ∧ Prompt W body ∧
    (xs = [] ∨ (∀ k s s', semAll W k args s ≠ some (.fail, s')) ∧ ∀ s, (W.go (.enter p f) s).2 = true)

def PromptAll (W : World σ) : Nodes → Prop
  | .nil => True
  | .cons n rest => Prompt W n ∧ PromptAll W rest

def PromptArms (W : World σ) : Arms → Prop
  | .other n => Prompt W n
  | .alt _ n rest => Prompt W n ∧ PromptArms W rest
end

theorem close_dropLocals (W : World σ) : ∀ (xs : List Nat) (o : Out) (s : σ),
    close W (xs.map .drop) o s = (o, xs.foldl (fun s x => (W.go (.drop x) s).1) s)
  | [], _, _ => rfl
  | x :: xs, o, s => by
    have hg : (W.go (.drop x) s).2 = true := go_infallible rfl s
    simp only [List.map_cons, close, hg, if_true, List.foldl_cons]
    exact close_dropLocals W xs o _

theorem leave_block (W : World σ) (xs : List Nat) (r : Out × σ) : leaveBlock W xs r = leave W (xs.map .drop) r := by
  obtain ⟨o, s⟩ := r
  cases o with
  | poison => simp [leaveBlock, leave]
  | _ =>
    simp only [leaveBlock, leave]
    rw [if_neg (by simp), ← List.map_reverse, close_dropLocals]
    rfl

theorem leave_scoped (W : World σ) (xs : List Nat) (p : Nat) (f : Bool) (r : Out × σ) :
    leaveScoped W xs p f r = leave W (xs.map .drop) (leave W [.slide p f] r) := by
  obtain ⟨o, s⟩ := r
  have hb : ∀ o s, o ≠ .poison → leave W (xs.map .drop) (o, s) = (o, dropLocals W xs s) := by
    intro o s ho
    rw [← leave_block]
    cases o with
    | poison => exact absurd rfl ho
    | _ => rfl
  have key : ∀ o, o ≠ .poison → (match W.go (.slide p f) s with
      | (s1, true) => (o, dropLocals W xs s1)
      | (s1, false) => if o = .fail then (.poison, s1) else (.fail, dropLocals W xs s1)) =
      leave W (xs.map .drop) (leave W [.slide p f] (o, s)) := by
    intro o ho
    have hl : leave W [.slide p f] (o, s) = close W [.slide p f] o s := by
      unfold leave; rw [if_neg ho]; rfl
    rw [hl]
    simp only [close]
    have hg : W.go (.slide p f) s = ((W.go (.slide p f) s).1, (W.go (.slide p f) s).2) := rfl
    cases h : (W.go (.slide p f) s).2 with
    | true =>
      rw [h] at hg
      rw [hg]
      simp only [if_true]
      rw [hb _ _ ho]
    | false =>
      rw [h] at hg
      rw [hg]
      simp only [Bool.false_eq_true, if_false]
      by_cases hf : o = .fail
      · rw [if_pos hf, if_pos hf, leave_poison]
      · rw [if_neg hf, if_neg hf, hb _ _ (by simp)]
  cases o with
  | poison => simp [leaveScoped, leave]
  | done => exact key _ (by simp)
  | brk l => exact key _ (by simp)
  | cont l => exact key _ (by simp)
  | ret => exact key _ (by simp)
  | fail => exact key _ (by simp)

mutual
theorem eval_eq (W : World σ) (k : Nat) : ∀ n : Node, Prompt W n → eval W k n = sem W k n
  | .op a f, _ => by
    funext s
    simp only [eval, sem]
    have hg : W.go (.act a f) s = ((W.go (.act a f) s).1, (W.go (.act a f) s).2) := rfl
    cases h : (W.go (.act a f) s).2 with
    | true => rw [h] at hg; rw [hg]; rfl
    | false => rw [h] at hg; rw [hg]; rfl
  | .block xs body, hp => by
    funext s
    simp only [eval, sem]
    rw [evalAll_eq W k body hp]
    congr 1
    funext r
    exact leave_block W xs r
  | .case n arms, hp => by
    funext s
    simp only [eval, sem]
    rw [eval_eq W k n hp.1, evalArms_eq W k arms hp.2]
    rfl
  | .loop l body, hp => by
    funext s
    simp only [eval, sem]
    rw [eval_eq W k body hp]
  | .brk l v, hp => by
    funext s
    simp only [eval, sem]
    rw [eval_eq W k v hp]
    rfl
  | .cont l, _ => by
    funext s
    simp only [eval, sem]
  | .ret v, hp => by
    funext s
    simp only [eval, sem]
    rw [eval_eq W k v hp]
    rfl
  | .scoped xs pre args p f body, hp => by
    obtain ⟨hp1, hp2, hp3, hp4⟩ := hp
    funext s
    simp only [eval, sem]
    rw [evalAll_eq W k pre hp1, evalAll_eq W k args hp2, eval_eq W k body hp3]
    have hnil : ∀ r : Out × σ, xs = [] → leave W (xs.map .drop) r = r := by
      rintro r rfl; exact leave_nil W r
    match semAll W k pre s with
    | none => rfl
    | some (.done, s1) =>
      simp only
      match ha : semAll W k args s1 with
      | none => rfl
      | some (.done, s2) =>
        simp only
        have hg : W.go (.enter p f) s2 = ((W.go (.enter p f) s2).1, (W.go (.enter p f) s2).2) := rfl
        cases h : (W.go (.enter p f) s2).2 with
        | true =>
          rw [h] at hg; rw [hg]
          simp only [if_true, Option.map_map]
          congr 1
          funext r
          exact leave_scoped W xs p f r
        | false =>
          rw [h] at hg; rw [hg]
          simp only [Bool.false_eq_true, if_false, Option.map_some]
          rcases hp4 with hx | ⟨_, hx⟩
          · rw [hnil _ hx]
          · rw [hx s2] at h; cases h
      | some (.fail, s2) =>
        simp only [Option.map_some]
        rcases hp4 with hx | ⟨hx, _⟩
        · rw [hnil _ hx]
        · exact absurd ha (hx k s1 s2)
      | some (.brk l, s2) => simp only [Option.map_some, leave_block]
      | some (.cont l, s2) => simp only [Option.map_some, leave_block]
      | some (.ret, s2) => simp only [Option.map_some, leave_block]
      | some (.poison, s2) => simp only [Option.map_some, leave_block]
    | some (.brk l, s1) => simp only [Option.map_some, leave_block]
    | some (.cont l, s1) => simp only [Option.map_some, leave_block]
    | some (.ret, s1) => simp only [Option.map_some, leave_block]
    | some (.fail, s1) => simp only [Option.map_some, leave_block]
    | some (.poison, s1) => simp only [Option.map_some, leave_block]

theorem evalAll_eq (W : World σ) (k : Nat) : ∀ ns : Nodes, PromptAll W ns → evalAll W k ns = semAll W k ns
  | .nil, _ => by
    funext s
    simp only [evalAll, semAll]
  | .cons n rest, hp => by
    funext s
    simp only [evalAll, semAll]
    rw [eval_eq W k n hp.1, evalAll_eq W k rest hp.2]
    rfl

theorem evalArms_eq (W : World σ) (k : Nat) : ∀ arms : Arms, PromptArms W arms → evalArms W k arms = semArms W k arms
  | .other n, hp => by
    funext s
    simp only [evalArms, semArms]
    rw [eval_eq W k n hp]
  | .alt t n rest, hp => by
    funext s
    simp only [evalArms, semArms]
    rw [eval_eq W k n hp.1, evalArms_eq W k rest hp.2]
end

/-- C81, the evaluator: if wherever an accessor is called with temporaries to drop its arguments and itself do not fail, the
evaluator cleans up every scope on every way out.  What is missing: accessors that fail, `C81_refused_violated`. -/
theorem C81_evaluated_partial {W : World σ} {n : Node} (hp : Prompt W n) (k : Nat) (s : σ) : eval W k n s = sem W k n s := by
  rw [eval_eq W k n hp]

/-- C81: the evaluator and compiled code end in the same ways and states.  What is missing: as before. -/
theorem C81_agree_partial {W : World σ} {n : Node} {bs : List Block} (hc : Calm W n) (hp : Prompt W n)
    (h : compile n = some bs) (s : σ) (o : Out) (s' : σ) :
    (∃ j, steps W bs j (startOf bs 0 s) = some (.fin o s')) ↔ ∃ k o', eval W k n s = some (o', s') ∧ o = ending o' := by
  rw [compile_iff hc h s o s']
  simp only [C81_evaluated_partial hp]

/-! ### Examples and counterexamples -/

/-- A small world: the state are the locals that hold something, the accessors suspended being the numbers from 100 on.  `act a`
fills the local `a` below 50; from 50 on it fails if it may; an accessor fails to start from 50 on, and to be resumed from 80 on. -/
def small : World (List Nat) where
  run
    | .act a _, s => if a < 50 then (a :: s, true) else (s, false)
    | .drop x, s => (s.filter (· != x), true)
    | .enter p _, s => if p < 50 ∨ 80 ≤ p then ((100 + p) :: s, true) else (s, false)
    | .slide p _, s => (s.filter (· != 100 + p), decide (p < 80))
  test t s := s.contains t

/-- A loop with a block: it fills a local, begins an accessor, and inside breaks, fails or goes on. -/
def sample (inner : Node) : Node :=
  .block [1] (.cons (.op 1 false) (.cons
    (.loop 0 (.block [2] (.cons (.op 2 false) (.cons
      (.scoped [3] .nil (.cons (.op 3 false) .nil) 4 false inner) .nil)))) .nil))

/-- The hypotheses of the theorems hold for it whatever is inside, and all is dropped and resumed. -/
example : Calm small (sample (.brk 0 (.op 5 false))) ∧ Prompt small (sample (.brk 0 (.op 5 false))) ∧
    (compile (sample (.brk 0 (.op 5 false)))).isSome = true ∧
    sem small 2 (sample (.brk 0 (.op 5 false))) [] = some (.done, [5]) ∧
    sem small 2 (sample (.op 60 true)) [] = some (.fail, []) ∧
    sem small 2 (sample (.ret (.op 5 false))) [] = some (.ret, [5]) := by
  have hst : ∀ k s o s', semAll small k (.cons (.op 3 false) .nil) s = some (o, s') → o = .done := by
    intro k s o s' h
    simp [semAll, sem, World.go, Op.fallible] at h
    exact h.1.symm
  refine ⟨?_, ?_, by decide +kernel, by decide +kernel, by decide +kernel, by decide +kernel⟩
  · refine ⟨trivial, ⟨trivial, ⟨trivial, ⟨trivial, trivial⟩, trivial, Or.inr ⟨?_, hst⟩⟩, trivial⟩, trivial⟩
    intro k s o s' h
    simp [semAll] at h
    exact h.1.symm
  · refine ⟨trivial, ⟨trivial, ⟨trivial, ⟨trivial, trivial⟩, trivial, Or.inr ⟨?_, fun s => go_infallible rfl s⟩⟩, trivial⟩, trivial⟩
    intro k s s' h
    have := hst k s _ _ h
    cases this

/-- `small` counts and holds as the theorems ask, for the accessors used once at a time. -/
example : Holds small (fun x s => x ∈ s) :=
  ⟨fun x s => by simp [World.go, small], fun x y s h => by simp [World.go, small]; exact fun h' => absurd h' h⟩

/-- A world that counts: accessors from 50 on fail to start. -/
def counting : World Int where
  run
    | .act _ _, s => (s, true)
    | .drop _, s => (s, true)
    | .enter p f, s => if p < 50 ∨ f = false then (s + 1, true) else (s, false)
    | .slide p _, s => (s - 1, decide (p < 20))
  test _ s := decide (0 < s)

example : Counts counting id := by
  refine ⟨fun _ _ _ => rfl, fun _ _ => rfl, ?_, ?_, fun _ _ _ => rfl⟩
  · intro p f s h
    simp only [World.go, counting, Op.fallible, id] at h ⊢
    split at h
    · rename_i hp
      rw [if_pos hp]
    · rename_i hp
      simp only [Bool.or_false, Bool.not_eq_true'] at h
      exact absurd (Or.inr h) hp
  · intro p f s h
    simp only [World.go, counting, Op.fallible, id] at h ⊢
    split at h
    · simp at h
    · rename_i hp
      rw [if_neg hp]

/-- How the code ends after so many steps. -/
def endAfter (j : Nat) (n : Node) : Option (Out × List Nat) :=
  match (compile n).bind (fun bs => steps small bs j (startOf bs 0 [])) with
  | some (.fin o s) => some (o, s)
  | _ => none

/-- The call of an accessor with a temporary: the first argument fills the local 7, the second may fail or return. -/
def withArgument (arg : Node) : Node :=
  .scoped [7] .nil (.cons (.op 7 false) (.cons arg .nil)) 4 false (.op 8 false)

/-- C81 fails for arguments that do not complete: if the second argument of an accessor fails, or returns, compiled code leaves
the temporary of the first one undropped. -/
theorem C81_leak_violated :
    endAfter 3 (withArgument (.op 60 true)) = some (.fail, [7]) ∧
    sem small 1 (withArgument (.op 60 true)) [] = some (.fail, []) ∧
    endAfter 6 (withArgument (.case (.op 5 false) (.alt 5 (.ret (.op 6 false)) (.other (.op 9 false))))) = some (.ret, [6, 5, 7]) ∧
    eval small 1 (withArgument (.case (.op 5 false) (.alt 5 (.ret (.op 6 false)) (.other (.op 9 false))))) [] =
      some (.ret, [6, 5]) := by
  decide +kernel

/-- C81 fails for accessors that fail to start, in the evaluator: the temporaries are not dropped; compiled code drops them. -/
theorem C81_refused_violated :
    eval small 1 (.scoped [7] .nil (.cons (.op 7 false) .nil) 60 true (.op 8 false)) [] = some (.fail, [7]) ∧
    endAfter 4 (.scoped [7] .nil (.cons (.op 7 false) .nil) 60 true (.op 8 false)) = some (.fail, []) := by
  decide +kernel

/-- C81 fails for a `return` inside the value of a `return`: the compiler panics, the evaluator returns; inside a `break` it
does not. -/
theorem C81_panic_violated :
    compile (.ret (.ret (.op 7 false))) = none ∧ eval small 1 (.ret (.ret (.op 7 false))) [] = some (.ret, [7]) ∧
    (compile (.loop 0 (.brk 0 (.ret (.op 7 false))))).isSome = true := by
  decide +kernel

end Ferlium.Cleanup
