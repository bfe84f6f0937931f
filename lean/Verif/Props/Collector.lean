import Verif.Proofs.Collector

/-!
# C100: functions made by the search for implementations
-/

namespace Ferlium.Collector

open Ferlium.Checkpoint (Defs)

section

variable {cand : Nat → Nat → Nat}

/-- **C100.** An attempt that is taken back leaves no trace, whatever it made, also in attempts of its
own. -/
theorem C100_attempts_leave_no_trace {base : Nat} {s s' : St} {acts : List Act}
    (h : run cand base s (.attempt acts) = some s') : s' = s := attempt_eq h

/-- **C100.** After the search, each function made by it stands in the table of functions under the
number by which bodies and implementations name it, and all functions and implementations that they
name exist. -/
theorem C100_no_dangling_references {s s' : St} (hs : Ok s) {acts : List Act}
    (hr : runAll cand s.initial s acts = some s') {fs fs' : List (List Nat)} {d d' : Defs}
    (hfs : fs.length = s.initial) (hold : ∀ b ∈ fs, ∀ f ∈ b, f < s.initial)
    (hc : commit cand s'.elems fs d = some (fs', d')) :
    (∀ i < fs.length, fs'[i]? = fs[i]?) ∧
      (∀ i n b, s'.elems[i]? = some (n, some b) → fs'[s.initial + i]? = some b) ∧
      (∀ b ∈ fs', ∀ f ∈ b, f < fs'.length) ∧ (∀ m ∈ s'.data, ∀ f ∈ m, f < fs'.length) ∧
      ∀ t k i, s'.keys t k = some i → i < s'.data.length := by
  have hk : s'.initial = s.initial := by
    have : ∀ (l : List Act) {s s' : St}, runAll cand s.initial s l = some s' → s'.initial = s.initial := by
      have one : ∀ (a : Act) {b : Nat} {s s' : St}, run cand b s a = some s' → s'.initial = s.initial := by
        intro a b s s' h
        cases a with
        | attempt acts => rw [attempt_eq h]
        | push name body =>
          simp only [run] at h
          split at h
          · obtain ⟨n, -, rfl⟩ := Option.map_eq_some_iff.1 h; rfl
          · cases h
        | reserve name =>
          simp only [run] at h
          obtain ⟨n, -, rfl⟩ := Option.map_eq_some_iff.1 h; rfl
        | replace id body =>
          simp only [run] at h
          split at h
          · split at h
            · cases h; rfl
            · cases h
          · cases h
        | add t k ms =>
          simp only [run] at h
          split at h
          · cases h; rfl
          · cases h
      intro l
      induction l with
      | nil => intro s s' h; simp only [runAll] at h; cases h; rfl
      | cons a t ih =>
        intro s s' h
        simp only [runAll] at h
        split at h
        · rename_i s1 h1
          have e := one a h1
          rw [← e] at h ⊢
          exact ih h
        · cases h
    exact this acts hr
  have hok := runAll_ok acts hs hr
  obtain ⟨⟨bs, h1, rfl⟩, -⟩ := commit_spec _ hc
  have hlen : bs.length = s'.elems.length := by
    have := congrArg List.length h1
    simpa using this.symm
  have hnext : s'.next = (fs ++ bs).length := by
    simp only [St.next, List.length_append, hk, hlen, hfs]
  refine ⟨fun i hi => by rw [List.getElem?_append_left hi], fun i n b hi => ?_, fun b hb f hf => ?_,
    fun m hm f hf => ?_, hok.key⟩
  · rw [← hfs, List.getElem?_append_right (Nat.le_add_right _ _), Nat.add_sub_cancel_left]
    have h2 := congrArg (·[i]?) h1
    simp only [List.getElem?_map, hi, Option.map_some] at h2
    cases h3 : bs[i]? with
    | none => rw [h3] at h2; cases h2
    | some c => rw [h3] at h2; simpa using h2.symm
  · rcases List.mem_append.1 hb with hb | hb
    · have := hold b hb f hf
      rw [← hfs] at this
      simp only [List.length_append]
      omega
    · rw [← hnext]
      have : some b ∈ s'.elems.map (·.2) := h1 ▸ List.mem_map.2 ⟨b, hb, rfl⟩
      obtain ⟨e, he, heb⟩ := List.mem_map.1 this
      exact hok.body e he b heb f hf
  · rw [← hnext]
    exact hok.impl m hm f hf

/-- **C100.** Every function made gets a name of its own that no one used, and no name that had a
meaning before gets another one. -/
theorem C100_names_keep_their_meaning {l : List (Nat × Option (List Nat))} {fs fs' : List (List Nat)}
    {d d' : Defs} (h : commit cand l fs d = some (fs', d')) :
    (∀ n i, d.ids n = some i → d'.ids n = some i ∧ ∀ v, d.data[i]? = some v → d'.data[i]? = some v) ∧
      ∀ j < l.length, ∃ n, d.ids n = none ∧ d'.ids n = some (d.data.length + j) ∧
        ∃ m, d'.data[d.data.length + j]? = some (fs.length + j, some m) := by
  obtain ⟨-, ⟨ns, h3, h4⟩, h5, h6⟩ := commit_spec _ h
  refine ⟨fun n i hi => ⟨h5 n i hi, fun v hv => ?_⟩, fun j hj => ?_⟩
  · rw [h4, List.getElem?_append_left (List.getElem?_eq_some_iff.1 hv).1, hv]
  · obtain ⟨n, hn1, hn2⟩ := h6 j hj
    refine ⟨n, hn1, hn2, ns[j], ?_⟩
    rw [h4, List.getElem?_append_right (Nat.le_add_right _ _), Nat.add_sub_cancel_left]
    simp [h3, hj]

/-- **C100.** Names are found, and functions that all have code are stored without a panic. -/
theorem C100_commit_ends (hc : ∀ b, Function.Injective (cand b)) {l : List (Nat × Option (List Nat))}
    (fs : List (List Nat)) {d : Defs} (hd : Stored d) :
    (∃ r, commit cand l fs d = some r) ↔ ∀ e ∈ l, e.2 ≠ none := by
  refine ⟨fun ⟨r, hr⟩ e he hn => ?_, fun hl => commit_ends hc l fs hd hl⟩
  obtain ⟨⟨bs, h1, -⟩, -⟩ := commit_spec (fs' := r.1) (d' := r.2) l hr
  have : e.2 ∈ bs.map some := h1 ▸ List.mem_map.2 ⟨e, he, rfl⟩
  obtain ⟨b, -, hb⟩ := List.mem_map.1 this
  rw [hn] at hb
  cases hb

/-- **C100.** A function can always be made: a name for it is found. -/
theorem C100_push_ends (hc : ∀ b, Function.Injective (cand b)) (base : Nat) (s : St) (name : Nat)
    {body : List Nat} (hb : ∀ f ∈ body, f < s.next) :
    ∃ n, run cand base s (.push name body) = some { s with elems := s.elems ++ [(n, some body)] } ∧
      n ∉ s.elems.map (·.1) := by
  obtain ⟨n, hn⟩ := unique_ends (hc name) (taken := fun n => s.elems.any (·.1 == n))
    (l := s.elems.map (·.1)) (fun n hn => by
      obtain ⟨e, he, h⟩ := List.any_eq_true.1 hn
      exact List.mem_map.2 ⟨e, he, by simpa using h⟩) (n := s.elems.length + 1) (by simp) 0
  have hf : s.fresh cand name = some n := hn
  refine ⟨n, ?_, fresh_spec hf⟩
  simp only [run]
  rw [if_pos (by simpa using hb), hf]
  rfl

theorem keys_stay : ∀ (l : List Act) {base : Nat} {s s' : St}, runAll cand base s l = some s' →
    ∀ t k, s.keys t k ≠ none → s'.keys t k ≠ none := by
  intro l
  induction l with
  | nil => intro base s s' h t k hk; simp only [runAll] at h; cases h; exact hk
  | cons a l ih =>
    intro base s s' h t k hk
    simp only [runAll] at h
    split at h
    · rename_i s1 h1
      refine ih h t k ?_
      cases a with
      | attempt acts => rw [attempt_eq h1]; exact hk
      | push name body =>
        simp only [run] at h1
        split at h1
        · obtain ⟨n, -, rfl⟩ := Option.map_eq_some_iff.1 h1; exact hk
        · cases h1
      | reserve name =>
        simp only [run] at h1
        obtain ⟨n, -, rfl⟩ := Option.map_eq_some_iff.1 h1; exact hk
      | replace id body =>
        simp only [run] at h1
        split at h1
        · split at h1
          · cases h1; exact hk
          · cases h1
        · cases h1
      | add t' k' ms =>
        simp only [run] at h1
        split at h1
        · cases h1
          simp only
          split
          · simp
          · exact hk
        · cases h1
    · cases h

theorem reserved {base : Nat} {s s1 : St} {key name : Nat}
    (h : runAll cand base s [.reserve name, .add 0 key [s.next]] = some s1) :
    Keeps s s1 ∧ s1.keys 0 key ≠ none ∧ ∃ n, s1.elems = s.elems ++ [(n, none)] := by
  simp only [runAll, run] at h
  cases hf : s.fresh cand name with
  | none => rw [hf] at h; cases h
  | some n =>
    rw [hf] at h
    simp only [Option.map_some] at h
    split at h
    · rename_i s2 h2
      split at h2
      · cases h2
        cases h
        exact ⟨⟨rfl, ⟨_, rfl⟩, ⟨_, rfl⟩⟩, by simp, n, rfl⟩
      · cases h2
    · cases h

/-- **C100.** A derivation that succeeds adds an implementation, found from then on, whose method is the
function with the code made, whatever was made for the parts, and changes nothing of what was there. -/
theorem C100_derivation_has_its_code {base : Nat} {s s' : St} {key name : Nat} {inner : List Act}
    {body : List Nat} (hn : s.keys 0 key = none) {b : Bool}
    (h : solve cand base s key name inner (.built body) = some (b, s')) :
    b = true ∧ s'.keys 0 key ≠ none ∧ s'.data[s.data.length]? = some [s.next] ∧
      (∃ n, s'.elems[s.next - s.initial]? = some (n, some body)) ∧
      (∀ i < s.elems.length, s'.elems[i]? = s.elems[i]?) ∧ ∀ i < s.data.length, s'.data[i]? = s.data[i]? := by
  simp only [solve, hn] at h
  split at h
  · cases h
  · rename_i s1 h1
    split at h
    · cases h
    · rename_i s2 h2
      obtain ⟨hk, hkey, n, hel⟩ := reserved h1
      have hdata : s1.data = s.data ++ [[s.next]] := by
        simp only [runAll, run] at h1
        cases hf : s.fresh cand name with
        | none => rw [hf] at h1; cases h1
        | some n =>
          rw [hf] at h1
          simp only [Option.map_some] at h1
          split at h1
          · rename_i s3 h3
            split at h3
            · cases h3; cases h1; rfl
            · cases h3
          · cases h1
      obtain ⟨e1, ⟨x, e2⟩, ⟨y, e3⟩⟩ :=
        runAll_keeps inner _ _ _ h2 s1 (Nat.le_refl _) ⟨rfl, ⟨[], by simp⟩, ⟨[], by simp⟩⟩
      have hkey2 := keys_stay _ h2 _ _ hkey
      obtain ⟨s3, h3, h4⟩ := Option.map_eq_some_iff.1 h
      cases h4
      have hi : s2.initial = s.initial := e1.trans hk.1
      have hx : s.next - s2.initial = s.elems.length := by simp [St.next, hi]
      simp only [run, hx] at h3
      split at h3
      · split at h3
        · rename_i m _ hm
          cases h3
          have hl : s.elems.length < s2.elems.length := (List.getElem?_eq_some_iff.1 hm).1
          refine ⟨rfl, hkey2, ?_, ⟨m, ?_⟩, fun i hi => ?_, fun i hi => ?_⟩
          · simp [← e3, hdata]
          · rw [hi] at hx; rw [hx]; simp [hl]
          · simp only
            rw [List.getElem?_set_ne (by omega), ← e2, hel, List.append_assoc, List.getElem?_append_left hi]
          · simp only
            rw [← e3, hdata, List.append_assoc, List.getElem?_append_left hi]
        · cases h3
      · cases h3

/-- **C100.** A derivation that finds that there is nothing to derive leaves no trace. -/
theorem C100_refused_derivation_leaves_no_trace {base : Nat} {s s' : St} {key name : Nat}
    {inner : List Act} (hn : s.keys 0 key = none)
    (h : solve cand base s key name inner .refused = some (false, s')) : s' = s := by
  simp only [solve, hn] at h
  split at h
  · cases h
  · rename_i s1 h1
    split at h
    · cases h
    · rename_i s2 h2
      simp only [Option.some.injEq, Prod.mk.injEq, true_and] at h
      obtain ⟨hk, -, -⟩ := reserved h1
      rw [← h]
      refine back_eq (runAll_keeps inner _ _ _ h2 s ?_ hk)
      obtain ⟨e1, ⟨x, e2⟩, -⟩ := hk
      simp only [St.next, e1, ← e2, List.length_append]
      omega

/-- **C100, negation.** A derivation that ends with an error leaves its reservation: the next search for
the same types finds an implementation, and storing the functions panics. -/
theorem C100_failed_derivation_violated {base : Nat} {s s' : St} {key name : Nat} {inner : List Act}
    (hn : s.keys 0 key = none) (h : solve cand base s key name inner .error = some (false, s')) :
    (∀ base' name' inner' o, solve cand base' s' key name' inner' o = some (true, s')) ∧
      ∀ fs d, commit cand s'.elems fs d = none := by
  simp only [solve, hn] at h
  split at h
  · cases h
  · rename_i s1 h1
    split at h
    · cases h
    · rename_i s2 h2
      simp only [Option.some.injEq, Prod.mk.injEq, true_and] at h
      subst h
      obtain ⟨-, hk, n, hel⟩ := reserved h1
      have hk2 := keys_stay _ h2 _ _ hk
      refine ⟨fun b' n' i' o => ?_, fun fs d => ?_⟩
      · obtain ⟨i, hi⟩ := Option.ne_none_iff_exists'.1 hk2
        simp only [solve, hi]
      · obtain ⟨-, ⟨x, e2⟩, -⟩ := runAll_keeps inner _ _ _ h2 s1 (Nat.le_refl _) ⟨rfl, ⟨[], by simp⟩, ⟨[], by simp⟩⟩
        cases hc : commit cand s2.elems fs d with
        | none => rfl
        | some r =>
          obtain ⟨⟨bs, hb, -⟩, -⟩ := commit_spec (fs' := r.1) (d' := r.2) _ hc
          have hm : (n, none) ∈ s2.elems := by rw [← e2, hel]; simp
          have : (none : Option (List Nat)) ∈ bs.map some := hb ▸ List.mem_map.2 ⟨_, hm, rfl⟩
          simp at this

end

/-! ## A search -/

namespace Example

/-- Suffixes are added. -/
def cand (b k : Nat) : Nat := b + 100 * k

theorem cand_inj (b : Nat) : Function.Injective (cand b) := by
  intro x y h
  simp only [cand] at h
  omega

/-- A module of two functions. -/
def start : St := ⟨2, [], [], fun _ _ => none⟩

/-- A slot is reserved, an attempt makes two functions and an implementation and is taken back; then
the slot gets a body that calls itself and a function of the same name as the one taken back. -/
def acts : List Act :=
  [.reserve 5, .add 0 1 [2], .attempt [.push 6 [2], .reserve 6, .replace 4 [3], .add 0 2 [3, 4],
    .attempt [.add 1 1 [0]]], .push 5 [0, 2], .replace 2 [2, 3]]

/-- Names 5 and 7 are taken in the module. -/
def defs : Defs := ⟨[(0, some 5), (1, some 7)], fun n => if n = 5 then some 0 else if n = 7 then some 1 else none⟩

theorem start_ok : Ok start :=
  ⟨fun e he => (List.not_mem_nil he).elim, fun m hm => (List.not_mem_nil hm).elim, fun t k i h => (by cases h),
    List.nodup_nil⟩

/-- The search leaves two functions, which are stored under new names. -/
theorem searched : (runAll cand 2 start acts).map (fun s => (s.elems, s.data)) =
    some ([(5, some [2, 3]), (105, some [0, 2])], [[2]]) := by decide +kernel

theorem committed : (commit cand [(5, some [2, 3]), (105, some [0, 2])] [[], [0]] defs).map
    (fun r => (r.1, r.2.ids 5, r.2.ids 105, r.2.ids 205)) =
    some ([[], [0], [2, 3], [0, 2]], some 0, some 2, some 3) := by decide +kernel

example : ∃ s fs d, runAll cand 2 start acts = some s ∧ commit cand s.elems [[], [0]] defs = some (fs, d) ∧
    fs.length = 4 ∧ ∀ b ∈ fs, ∀ f ∈ b, f < fs.length := by
  obtain ⟨s, h1, h2⟩ := Option.map_eq_some_iff.1 searched
  obtain ⟨⟨fs, d⟩, h3, h4⟩ := Option.map_eq_some_iff.1 committed
  simp only [Prod.mk.injEq] at h2 h4
  rw [← h2.1] at h3
  exact ⟨s, fs, d, h1, h3, by rw [h4.1]; rfl,
    (C100_no_dangling_references start_ok h1 rfl (by decide) h3).2.2.1⟩

/-- The attempt in it leaves no trace. -/
example : ∃ s, run cand 2 ⟨2, [(5, none)], [[2]], fun _ _ => none⟩
    (.attempt [.push 6 [2], .reserve 6, .replace 4 [3], .add 0 2 [3, 4]]) = some s ∧ s.elems = [(5, none)] :=
  ⟨_, rfl, rfl⟩

/-- A pair of which the second part has no implementation: `(int, fn)`. -/
example : ∃ s, solve cand 2 start 1 5 [.push 6 [2]] .error = some (false, s) ∧
    solve cand 2 s 1 5 [] .error = some (true, s) ∧ commit cand s.elems [[], [0]] defs = none := by
  have h : (solve cand 2 start 1 5 [.push 6 [2]] .error).map (·.1) = some false := by decide +kernel
  obtain ⟨⟨b, s⟩, h1, rfl⟩ := Option.map_eq_some_iff.1 h
  obtain ⟨h2, h3⟩ := C100_failed_derivation_violated rfl h1
  exact ⟨s, h1, h2 .., h3 ..⟩

/-- A pair of which both parts have one; the body calls what was made for a part, and itself. -/
example : ∃ s, solve cand 2 start 1 5 [.push 6 [2]] (.built [3, 2]) = some (true, s) ∧
    s.data[0]? = some [2] ∧ ∃ n, s.elems[0]? = some (n, some [3, 2]) := by
  have h : (solve cand 2 start 1 5 [.push 6 [2]] (.built [3, 2])).map (·.1) = some true := by decide +kernel
  obtain ⟨⟨b, s⟩, h1, rfl⟩ := Option.map_eq_some_iff.1 h
  obtain ⟨-, -, h2, h3, -⟩ := C100_derivation_has_its_code rfl h1
  exact ⟨s, h1, h2, h3⟩

/-- The same if there is nothing to derive. -/
example : ∃ s, solve cand 2 start 1 5 [.push 6 [2]] .refused = some (false, s) ∧ s = start := by
  have h : (solve cand 2 start 1 5 [.push 6 [2]] .refused).map (·.1) = some false := by decide +kernel
  obtain ⟨⟨b, s⟩, h1, rfl⟩ := Option.map_eq_some_iff.1 h
  exact ⟨s, h1, C100_refused_derivation_leaves_no_trace rfl h1⟩

/-- Storing ends here, and would not if the slot had no code. -/
example : (∃ r, commit cand [(5, some [2])] [[], [0]] defs = some r) ∧
    ¬ ∃ r, commit cand [(5, none)] [[], [0]] defs = some r := by
  have hd : Stored defs := by
    intro n i h
    simp only [defs] at h ⊢
    split at h
    · rename_i hn; cases h; exact ⟨0, by simp [hn]⟩
    · split at h
      · rename_i hn; cases h; exact ⟨1, by simp [hn]⟩
      · cases h
  exact ⟨(C100_commit_ends cand_inj _ hd).2 (by simp), fun h =>
    (C100_commit_ends cand_inj _ hd).1 h _ (List.mem_singleton.2 rfl) rfl⟩

end Example

end Ferlium.Collector
