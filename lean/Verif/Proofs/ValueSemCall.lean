import Verif.Proofs.ValueSemInv

/-!
# Calls: the frame of the called function
-/

namespace Ferlium.ValueSem

/-- How the evaluated arguments of a call are related.  `n₀` is the number of cells before the
arguments were evaluated, `muts` are the paths of the `MutableRef` arguments of the call. -/
inductive ArgsRel (E : Env) (n₀ : Nat) (m : Mem) (s : List (Val Unit)) (muts : List SPath) :
    Args → List Addr → List VArg → Prop
  | nil : ArgsRel E n₀ m s muts .nil [] []
  | isMut {p : Place} {rest as vs} {b : Bool × Addr} {q : List (Part Nat)}
      (hb : E[p.root]? = some b) (hm : b.1 = true) (hq : Matches p.parts q)
      (hH : Held m s p.root b q) (h : ArgsRel E n₀ m s muts rest as vs) :
      ArgsRel E n₀ m s muts (.cons true (.load p) rest) (b.2.sub q :: as)
        (.ref p.root (q.map Part.erase) :: vs)
  | held {p : Place} {rest as vs} {b : Bool × Addr} {q : List (Part Nat)} {M : Val Nat}
      (hb : E[p.root]? = some b) (hq : Matches p.parts q)
      (hM : rd m.cells (b.2.sub q) = some M) (ho : ∀ w ∈ muts, overlap p.path w = false)
      (h : ArgsRel E n₀ m s muts rest as vs) :
      ArgsRel E n₀ m s muts (.cons false (.load p) rest) (b.2.sub q :: as) (.val M.erase :: vs)
  | temp {e : Exp} {rest as vs} {c : Nat} (hc : n₀ ≤ c) (hn : c < m.next)
      (h : ArgsRel E n₀ m s muts rest as vs) :
      ArgsRel E n₀ m s muts (.cons false e rest) ((c, []) :: as) (.val (m.cells c).erase :: vs)

theorem ArgsRel.weaken {E : Env} {n₀ n₁ : Nat} {m : Mem} {s muts args as vs}
    (h : ArgsRel E n₁ m s muts args as vs) (hn : n₀ ≤ n₁) : ArgsRel E n₀ m s muts args as vs := by
  induction h with
  | nil => exact .nil
  | isMut hb hm hq hH _ ih => exact .isMut hb hm hq hH ih
  | held hb hq hM ho _ ih => exact .held hb hq hM ho ih
  | temp hc hn' _ ih => exact .temp (hn.trans hc) hn' ih

theorem ArgsRel.flags_le {E : Env} {n₀ : Nat} {m : Mem} {s muts args as vs}
    (h : ArgsRel E n₀ m s muts args as vs) : args.flags.length ≤ as.length := by
  induction h with
  | nil => exact le_refl _
  | isMut _ _ _ _ _ ih => simpa [Args.flags] using ih
  | held _ _ _ _ _ ih => simpa [Args.flags] using ih
  | temp _ _ _ ih => simpa [Args.flags] using ih

/-- The names of the called function. -/
abbrev calleeEnv (args : Args) (as : List Addr) : Env := args.flags.zip as

/-- What is known of one name of the called function. -/
def Desc (E : Env) (n₀ : Nat) (muts ms : List SPath) (c : Bool × Addr) : Prop :=
  (c.1 = true ∧ ∃ (p : Place) (b : Bool × Addr) (q : List (Part Nat)), p.path ∈ ms ∧
    E[p.root]? = some b ∧ b.1 = true ∧ Matches p.parts q ∧ c.2 = b.2.sub q) ∨
  (c.1 = false ∧ ∃ (p : Place) (b : Bool × Addr) (q : List (Part Nat)),
    (∀ w ∈ muts, overlap p.path w = false) ∧
    E[p.root]? = some b ∧ Matches p.parts q ∧ c.2 = b.2.sub q) ∨
  (c.1 = false ∧ n₀ ≤ c.2.1)

theorem ArgsRel.desc {E : Env} {n₀ : Nat} {m : Mem} {s muts args as vs}
    (h : ArgsRel E n₀ m s muts args as vs) :
    ∀ c ∈ calleeEnv args as, Desc E n₀ muts args.muts c := by
  induction h with
  | nil => intro c hc; cases hc
  | @isMut p rest as vs b q hb hm hq hH _ ih =>
    intro c hc
    rcases List.mem_cons.mp hc with rfl | hc
    · exact Or.inl ⟨rfl, p, b, q, by simp [Args.muts], hb, hm, hq, rfl⟩
    · rcases ih c hc with ⟨h1, p', b', q', h2, h3⟩ | h' | h'
      · exact Or.inl ⟨h1, p', b', q', by simp [Args.muts, h2], h3⟩
      · exact Or.inr (Or.inl h')
      · exact Or.inr (Or.inr h')
  | @held p rest as vs b q M hb hq hM ho _ ih =>
    intro c hc
    rcases List.mem_cons.mp hc with rfl | hc
    · exact Or.inr (Or.inl ⟨rfl, p, b, q, ho, hb, hq, rfl⟩)
    · rcases ih c hc with ⟨h1, p', b', q', h2, h3⟩ | h' | h'
      · exact Or.inl ⟨h1, p', b', q', by simpa [Args.muts] using h2, h3⟩
      · exact Or.inr (Or.inl h')
      · exact Or.inr (Or.inr h')
  | @temp e rest as vs c' hc' hn _ ih =>
    intro c hc
    rcases List.mem_cons.mp hc with rfl | hc
    · exact Or.inr (Or.inr ⟨rfl, hc'⟩)
    · rcases ih c hc with ⟨h1, p', b', q', h2, h3⟩ | h' | h'
      · exact Or.inl ⟨h1, p', b', q', by simpa [Args.muts] using h2, h3⟩
      · exact Or.inr (Or.inl h')
      · exact Or.inr (Or.inr h')

/-- The names of the called function share nothing with its mutable names. -/
theorem ArgsRel.apart {E : Env} {n₀ : Nat} {m : Mem} {s muts args as vs}
    (hE : E.Pairwise Apart) (hn : ∀ (x : Nat) (b : Bool × Addr), E[x]? = some b → b.2.1 < n₀)
    (h : ArgsRel E n₀ m s muts args as vs) (hno : noOverlap args.muts = true)
    (hsub : ∀ w ∈ args.muts, w ∈ muts) : (calleeEnv args as).Pairwise Apart := by
  induction h with
  | nil => exact List.Pairwise.nil
  | @isMut p rest as vs b q hb hm hq hH h ih =>
    simp only [Args.muts, noOverlap, Bool.and_eq_true, List.all_eq_true] at hno
    simp only [Args.muts] at hsub
    refine List.pairwise_cons.mpr ⟨?_, ih hno.2 (fun w hw => hsub w (List.mem_cons_of_mem _ hw))⟩
    intro c hc _
    rcases h.desc c hc with ⟨_, p', b', q', h2, h3, h4, h5, h6⟩ | ⟨_, p', b', q', h2, h3, h5, h6⟩ |
      ⟨_, h2⟩
    · rw [h6]
      exact disj_of_overlap hE hb h3 (Or.inl hm)
        (show overlap p.path p'.path = false by simpa using hno.1 _ h2) hq h5
    · rw [h6]
      exact (disj_of_overlap hE h3 hb (Or.inr hm) (h2 p.path (hsub _ List.mem_cons_self))
        h5 hq).symm
    · refine Or.inl (Nat.ne_of_lt ?_)
      exact (hn _ _ hb).trans_le h2
  | @held p rest as vs b q M hb hq hM ho h ih =>
    simp only [Args.muts] at hno hsub
    refine List.pairwise_cons.mpr ⟨?_, ih hno hsub⟩
    intro c hc hm
    rcases h.desc c hc with ⟨_, p', b', q', h2, h3, h4, h5, h6⟩ | ⟨h1, _⟩ | ⟨h1, _⟩
    · rw [h6]
      exact disj_of_overlap hE hb h3 (Or.inr h4) (ho _ (hsub _ h2)) hq h5
    · exact absurd (hm.resolve_left (by simp)) (by simp [h1])
    · exact absurd (hm.resolve_left (by simp)) (by simp [h1])
  | @temp e rest as vs c' hc' hn' h ih =>
    have hmu : (Args.cons false e rest).muts = rest.muts := by simp [Args.muts]
    rw [hmu] at hno hsub
    refine List.pairwise_cons.mpr ⟨?_, ih hno hsub⟩
    intro c hc hm
    rcases h.desc c hc with ⟨_, p', b', q', h2, h3, h4, h5, h6⟩ | ⟨h1, _⟩ | ⟨h1, _⟩
    · refine Or.inl (Nat.ne_of_gt ?_)
      rw [h6]
      exact (hn _ _ h3).trans_le hc'
    · exact absurd (hm.resolve_left (by simp)) (by simp [h1])
    · exact absurd (hm.resolve_left (by simp)) (by simp [h1])

/-- The values with which the function starts. -/
def Starts (m : Mem) (b : Bool × Addr) (w : Val Unit) : Prop :=
  b.2.1 < m.next ∧ ∃ M, rd m.cells b.2 = some M ∧ w = M.erase

theorem ArgsRel.enter {E : Env} {n₀ : Nat} {m : Mem} {s muts args as vs}
    (hn : ∀ (x : Nat) (b : Bool × Addr), E[x]? = some b → b.2.1 < m.next)
    (h : ArgsRel E n₀ m s muts args as vs) :
    (present m args.flags as = true ∧
      ∃ ws, enter s vs = some ws ∧ List.Forall₂ (Starts m) (calleeEnv args as) ws) ∨
    (present m args.flags as = false ∧ enter s vs = none) := by
  induction h with
  | nil => exact Or.inl ⟨rfl, [], rfl, List.Forall₂.nil⟩
  | @isMut p rest as vs b q hb hm hq hH h ih =>
    unfold Held at hH
    cases hr : rd m.cells (b.2.sub q) with
    | none =>
      right
      rw [hr] at hH
      refine ⟨?_, ?_⟩
      · simp only [Args.flags, present]
        have : m.read (b.2.sub q) = none := hr
        rw [this]; rfl
      · simp only [ValueSem.enter, ← hH, Option.map_none]
    | some M =>
      have hr' : m.read (b.2.sub q) = some M := hr
      rw [hr] at hH
      rcases ih with ⟨h1, ws, h2, h3⟩ | ⟨h1, h2⟩
      · refine Or.inl ⟨?_, M.erase :: ws, ?_, ?_⟩
        · simp only [Args.flags, present, hr', h1]; rfl
        · simp only [ValueSem.enter, ← hH, Option.map_some, h2]
        · exact List.Forall₂.cons ⟨hn p.root b hb, M, hr, rfl⟩ h3
      · refine Or.inr ⟨?_, ?_⟩
        · simp only [Args.flags, present, hr', h1]; rfl
        · simp only [ValueSem.enter, ← hH, Option.map_some, h2]
  | @held p rest as vs b q M hb hq hM ho h ih =>
    rcases ih with ⟨h1, ws, h2, h3⟩ | ⟨h1, h2⟩
    · refine Or.inl ⟨?_, M.erase :: ws, ?_, ?_⟩
      · simp only [Args.flags, present, h1]
      · simp only [ValueSem.enter, h2]
      · exact List.Forall₂.cons ⟨hn p.root b hb, M, hM, rfl⟩ h3
    · refine Or.inr ⟨?_, ?_⟩
      · simp only [Args.flags, present, h1]
      · simp only [ValueSem.enter, h2]
  | @temp e rest as vs c' hc' hn' h ih =>
    rcases ih with ⟨h1, ws, h2, h3⟩ | ⟨h1, h2⟩
    · refine Or.inl ⟨?_, (m.cells c').erase :: ws, ?_, ?_⟩
      · simp only [Args.flags, present, h1]
      · simp only [ValueSem.enter, h2]
      · exact List.Forall₂.cons ⟨hn', m.cells c', get_nil _, rfl⟩ h3
    · refine Or.inr ⟨?_, ?_⟩
      · simp only [Args.flags, present, h1]
      · simp only [ValueSem.enter, h2]

theorem Inv.of_starts {E : Env} {m : Mem} {ws : List (Val Unit)}
    (h : List.Forall₂ (Starts m) E ws) (ha : E.Pairwise Apart) : Inv E m ws where
  len := h.length_eq.symm
  rel x b hb := by
    obtain ⟨hl, rfl⟩ := List.getElem?_eq_some_iff.mp hb
    have hl' : x < ws.length := h.length_eq ▸ hl
    obtain ⟨h1, M, h2, h3⟩ := List.Forall₂.get h hl hl'
    refine ⟨h1, M, h2, ?_⟩
    rw [List.getElem?_eq_getElem hl']
    exact congrArg some h3
  apart := ha

/-- Which parts of the caller are changed by the call. -/
def Ref (E : Env) (b : Bool × Addr) : VArg → Prop
  | .val _ => b.1 = false
  | .ref x q => b.1 = true ∧ ∃ (l : Bool × Addr) (r : List (Part Nat)), E[x]? = some l ∧
      l.1 = true ∧ b.2 = l.2.sub r ∧ q = r.map Part.erase

theorem ArgsRel.refs {E : Env} {n₀ : Nat} {m : Mem} {s muts args as vs}
    (h : ArgsRel E n₀ m s muts args as vs) : List.Forall₂ (Ref E) (calleeEnv args as) vs := by
  induction h with
  | nil => exact List.Forall₂.nil
  | isMut hb hm hq hH _ ih => exact List.Forall₂.cons ⟨rfl, _, _, hb, hm, rfl, rfl⟩ ih
  | held hb hq hM ho _ ih => exact List.Forall₂.cons (by simp [Ref]) ih
  | temp hc hn' _ ih => exact List.Forall₂.cons (by simp [Ref]) ih

/-- The final values of the parameters are written back one after the other. -/
theorem back_inv {E : Env} {f' : Nat → Val Nat} {k : Nat} : ∀ {L : List (Bool × Addr)}
    {vs : List VArg} {ts : List (Val Unit)} {f : Nat → Val Nat} {s : List (Val Unit)},
    List.Forall₂ (Ref E) L vs → L.Pairwise Apart → (∀ b ∈ mutAddrs L, (rd f b).isSome) →
    List.Forall₂ (fun b t => ∃ M, rd f' b.2 = some M ∧ t = M.erase) L ts → Inv E ⟨f, k⟩ s →
    Inv E ⟨back f' L f, k⟩ (leave vs ts s)
  | [], _, _, _, _, hr, _, _, ht, h => by
    cases hr; cases ht; exact h
  | (bm, a) :: L, v :: vs, t :: ts, f, s, hr, hp, hs, ht, h => by
    obtain ⟨hr1, hr2⟩ := List.forall₂_cons.mp hr
    obtain ⟨ht1, ht2⟩ := List.forall₂_cons.mp ht
    obtain ⟨hp1, hp2⟩ := List.pairwise_cons.mp hp
    cases v with
    | val v =>
      cases hr1
      rw [back, leave]
      exact back_inv hr2 hp2 hs ht2 h
    | ref x q =>
      obtain ⟨hbm, l, r, hl, hlm, ha, rfl⟩ := hr1
      cases hbm
      obtain ⟨M, hM, rfl⟩ := ht1
      simp only at ha hM
      subst ha
      obtain ⟨U, hU⟩ := Option.isSome_iff_exists.mp (hs _ List.mem_cons_self)
      simp only [back, hM, Option.getD_some, leave]
      refine back_inv hr2 hp2 ?_ ht2 (h.write hl hlm hU M k (le_refl _))
      intro b hb
      rw [rd_write_disj (hp1 _ (mem_mutAddrs.mp hb) (Or.inl rfl))]
      exact hs b (List.mem_cons_of_mem _ hb)
  | _ :: _, [], _, _, _, hr, _, _, _, _ => by cases hr
  | _ :: _, _ :: _, [], _, _, _, _, _, ht, _ => by cases ht

theorem frame_rd {n : Nat} {L : List Addr} {f f' : Nat → Val Nat} {a : Addr}
    (h : EqOn n (wipe L f') (wipe L f)) (ha : a.1 < n) (hd : ∀ b ∈ L, Disj b a) :
    rd f' a = rd f a := by
  rw [← rd_wipe_disj (f := f') hd, ← rd_wipe_disj (f := f) hd]
  exact h.rd ha

/-- The state of the caller after the body of the called function. -/
theorem Post.call {E : Env} {n₀ : Nat} {m m' : Mem} {s muts args as vs} {mw : SPath → Bool}
    {ts : List (Val Unit)} (hI : Inv E m s)
    (hn : ∀ (x : Nat) (b : Bool × Addr), E[x]? = some b → b.2.1 < n₀)
    (h : ArgsRel E n₀ m s muts args as vs) (hno : noOverlap args.muts = true)
    (hsub : ∀ w ∈ args.muts, w ∈ muts) {ws} (hws : List.Forall₂ (Starts m) (calleeEnv args as) ws)
    (hP : Post (calleeEnv args as) mw m m' ts) :
    Post E (fun o => args.muts.any (fun w => overlap w o)) m m' (leave vs ts s) := by
  have hap := h.apart hI.apart hn hno hsub
  have hsome : ∀ b ∈ mutAddrs (calleeEnv args as), (rd m.cells b).isSome := by
    intro b hb
    obtain ⟨i, hi⟩ := List.mem_iff_getElem?.mp (mem_mutAddrs.mp hb)
    obtain ⟨_, M, hM, _⟩ := (Inv.of_starts hws hap).rel i _ hi
    simp [hM]
  have hfin : List.Forall₂ (fun (b : Bool × Addr) t => ∃ M, rd m'.cells b.2 = some M ∧ t = M.erase)
      (calleeEnv args as) ts := by
    refine List.forall₂_iff_get.mpr ⟨hP.inv.len.symm, fun i h1 h2 => ?_⟩
    obtain ⟨_, M, hM, hs⟩ := hP.inv.rel i _ (List.getElem?_eq_getElem h1)
    refine ⟨M, hM, ?_⟩
    rw [List.getElem?_eq_getElem h2] at hs
    exact Option.some.inj hs
  have hsome' : ∀ b ∈ mutAddrs (calleeEnv args as), (rd m'.cells b).isSome := by
    intro b hb
    obtain ⟨i, hi⟩ := List.mem_iff_getElem?.mp (mem_mutAddrs.mp hb)
    obtain ⟨_, M, hM, _⟩ := hP.inv.rel i _ hi
    simp [hM]
  have hback : EqOn m.next m'.cells (back m'.cells (calleeEnv args as) m.cells) :=
    restore hap hsome' hP.frame
  have hunder : ∀ b ∈ mutAddrs (calleeEnv args as), ∃ A ∈ mutAddrs E, ∃ r, b = A.sub r := by
    intro b hb
    rcases h.desc _ (mem_mutAddrs.mp hb) with ⟨_, p, l, q, _, hl, hm, _, rfl⟩ | ⟨h1, _⟩ | ⟨h1, _⟩
    · exact ⟨l.2, Inv.mem_mutAddrs hl hm, q, rfl⟩
    · cases h1
    · cases h1
  refine ⟨?_, hP.le, ?_, ?_⟩
  · have := back_inv (f' := m'.cells) (k := m.next) (f := m.cells) h.refs hap hsome hfin hI
    exact this.mono hback hP.le
  · have h1 := EqOn.wipe (mutAddrs E) hP.frame
    rwa [wipe_unders (pairwise_mutAddrs hI.apart) hunder,
      wipe_unders (pairwise_mutAddrs hI.apart) hunder] at h1
  · intro x b π q hb ho hq
    refine frame_rd hP.frame (a := b.2.sub q) (hI.rel x b hb).1 ?_
    intro a ha
    rcases h.desc _ (mem_mutAddrs.mp ha) with ⟨_, p, l, r, hp, hl, hm, hr, rfl⟩ | ⟨h1, _⟩ | ⟨h1, _⟩
    · refine disj_of_overlap hI.apart hl hb (Or.inl hm) ?_ hr hq
      simp only [List.any_eq_false, Bool.not_eq_true] at ho
      exact ho _ hp
    · cases h1
    · cases h1

end Ferlium.ValueSem
