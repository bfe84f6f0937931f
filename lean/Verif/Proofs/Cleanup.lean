import Verif.Model.Cleanup

/-!
What leaving a piece of code means, independently of the evaluator and of the lowering; and the structure of what the lowering
builds: it only adds to the blocks there are, and its pads are chained outwards.
-/
namespace Ferlium.Cleanup

/-! ### The reference: leaving a scope runs its cleanup, whatever the way out -/

section spec
variable {σ : Type}

/-- Runs cleanup actions in this order.  A failure is the way out from then on; a failure during a failure poisons. -/
def close (W : World σ) : List Op → Out → σ → Out × σ
  | [], o, s => (o, s)
  | a :: rest, o, s =>
    if (W.go a s).2 then close W rest o (W.go a s).1
    else if o = .fail then (.poison, (W.go a s).1)
    else close W rest .fail (W.go a s).1

/-- Leaves a scope that declared these actions: the last declared runs first; nothing runs if execution is poisoned. -/
def leave (W : World σ) (acts : List Op) (r : Out × σ) : Out × σ :=
  if r.1 = .poison then r else close W acts.reverse r.1 r.2

mutual
/-- The meaning of a node, loops running at most `k` iterations each: every scope is left in the same way on every path. -/
def sem (W : World σ) (k : Nat) : Node → σ → Option (Out × σ)
  | .op a f, s => some (if (W.go (.act a f) s).2 then .done else .fail, (W.go (.act a f) s).1)
  | .block xs body, s => (semAll W k body s).map (leave W (xs.map .drop))
  | .case n arms, s =>
    match sem W k n s with
    | some (.done, s1) => semArms W k arms s1
    | r => r
  | .loop l body, s => iterate l (sem W k body) k s
  | .brk l v, s =>
    match sem W k v s with
    | some (.done, s1) => some (.brk l, s1)
    | r => r
  | .cont l, s => some (.cont l, s)
  | .ret v, s =>
    match sem W k v s with
    | some (.done, s1) => some (.ret, s1)
    | r => r
  | .scoped xs pre args p f body, s =>
    Option.map (leave W (xs.map .drop))
      (match semAll W k pre s with
      | some (.done, s1) =>
        match semAll W k args s1 with
        | some (.done, s2) =>
          if (W.go (.enter p f) s2).2 then (sem W k body (W.go (.enter p f) s2).1).map (leave W [.slide p f])
          else some (.fail, (W.go (.enter p f) s2).1)
        | r => r
      | r => r)

/-- Nodes in order, until one does not complete. -/
def semAll (W : World σ) (k : Nat) : Nodes → σ → Option (Out × σ)
  | .nil, s => some (.done, s)
  | .cons n rest, s =>
    match sem W k n s with
    | some (.done, s1) => semAll W k rest s1
    | r => r

/-- The first alternative whose test holds. -/
def semArms (W : World σ) (k : Nat) : Arms → σ → Option (Out × σ)
  | .other n, s => sem W k n s
  | .alt t n rest, s => if W.test t s then sem W k n s else semArms W k rest s
end

/-- Nodes that are never left but by completing. -/
def Steady (W : World σ) (ns : Nodes) : Prop := ∀ k s o s', semAll W k ns s = some (o, s') → o = .done

mutual
/-- Wherever an accessor is called with locals to drop, the statements and arguments before the call always complete. -/
def Calm (W : World σ) : Node → Prop
  | .op _ _ => True
  | .block _ body => CalmAll W body
  | .case n arms => Calm W n ∧ CalmArms W arms
  | .loop _ body => Calm W body
  | .brk _ v => Calm W v
  | .cont _ => True
  | .ret v => Calm W v
  | .scoped xs pre args _ _ body =>
    CalmAll W pre ∧ CalmAll W args ∧ Calm W body ∧ (xs = [] ∨ Steady W pre ∧ Steady W args)

def CalmAll (W : World σ) : Nodes → Prop
  | .nil => True
  | .cons n rest => Calm W n ∧ CalmAll W rest

def CalmArms (W : World σ) : Arms → Prop
  | .other n => Calm W n
  | .alt _ n rest => Calm W n ∧ CalmArms W rest
end

end spec

/-! ### What the builder keeps -/

/-- The blocks of `b` are beginnings of those of `b'`, and those that are terminated are the same. -/
structure Pre (b b' : B) : Prop where
  blocks : ∀ (i : Nat) (blk : Block), b.blocks[i]? = some blk →
    ∃ blk', b'.blocks[i]? = some blk' ∧ blk.ops <+: blk'.ops ∧ (∀ t, blk.term = some t → blk' = blk)
  prop : ∀ p, b.prop = some p → b'.prop = some p
  poison : ∀ p, b.poison = some p → b'.poison = some p

theorem Pre.rfl' (b : B) : Pre b b :=
  ⟨fun _ blk h => ⟨blk, h, List.prefix_rfl, fun _ _ => rfl⟩, fun _ h => h, fun _ h => h⟩

theorem Pre.trans {a b c : B} (h : Pre a b) (k : Pre b c) : Pre a c := by
  refine ⟨?_, fun p hp => k.prop p (h.prop p hp), fun p hp => k.poison p (h.poison p hp)⟩
  intro i blk hi
  obtain ⟨b1, h1, h2, h3⟩ := h.blocks i blk hi
  obtain ⟨b2, k1, k2, k3⟩ := k.blocks i b1 h1
  refine ⟨b2, k1, h2.trans k2, fun t ht => ?_⟩
  have := h3 t ht
  subst this
  exact k3 t ht

/-- `b'` is `b` with more: only the current block of `b` and new blocks differ. -/
structure Grow (b b' : B) : Prop where
  len : b.blocks.length ≤ b'.blocks.length
  keep : ∀ i, i < b.blocks.length → i ≠ b.point → b'.blocks[i]? = b.blocks[i]?
  more : ∀ blk, b.blocks[b.point]? = some blk →
    ∃ blk', b'.blocks[b.point]? = some blk' ∧ blk.ops <+: blk'.ops ∧ (∀ t, blk.term = some t → blk' = blk)
  pads : ∃ extra, b'.pads = b.pads ++ extra ∧ ∀ p ∈ extra, b.blocks.length ≤ p.block
  prop : ∀ p, b.prop = some p → b'.prop = some p
  poison : ∀ p, b.poison = some p → b'.poison = some p
  point : b'.point = b.point ∨ b.blocks.length ≤ b'.point

theorem lt_of_get {α : Type} {l : List α} {i : Nat} {x : α} (h : l[i]? = some x) : i < l.length := by
  by_contra hc
  rw [List.getElem?_eq_none (by omega)] at h
  cases h

theorem Grow.pre {b b' : B} (g : Grow b b') : Pre b b' := by
  refine ⟨fun i blk hi => ?_, g.prop, g.poison⟩
  by_cases h : i = b.point
  · subst h; exact g.more blk hi
  · exact ⟨blk, by rw [g.keep i (lt_of_get hi) h]; exact hi, List.prefix_rfl, fun _ _ => rfl⟩

theorem Grow.rfl' (b : B) : Grow b b :=
  ⟨le_refl _, fun _ _ _ => rfl, fun blk h => ⟨blk, h, List.prefix_rfl, fun _ _ => rfl⟩, ⟨[], by simp⟩, fun _ h => h,
    fun _ h => h, Or.inl rfl⟩

theorem Grow.trans {a b c : B} (h : Grow a b) (k : Grow b c) : Grow a c := by
  refine ⟨h.len.trans k.len, ?_, ?_, ?_, fun p hp => k.prop p (h.prop p hp),
    fun p hp => k.poison p (h.poison p hp), ?_⟩
  · intro i hi hne
    have h1 := h.len
    have : i ≠ b.point := by rcases h.point with hp | hp <;> omega
    rw [k.keep i (by omega) this, h.keep i hi hne]
  · intro blk hb
    obtain ⟨b1, h1, h2, h3⟩ := h.more blk hb
    obtain ⟨b2, k1, k2, k3⟩ := k.pre.blocks _ b1 h1
    refine ⟨b2, k1, h2.trans k2, fun t ht => ?_⟩
    have := h3 t ht
    subst this
    exact k3 t ht
  · obtain ⟨e1, h1, h2⟩ := h.pads
    obtain ⟨e2, k1, k2⟩ := k.pads
    refine ⟨e1 ++ e2, by rw [k1, h1, List.append_assoc], ?_⟩
    intro p hp
    rcases List.mem_append.1 hp with hp | hp
    · exact h2 p hp
    · exact h.len.trans (k2 p hp)
  · have h1 := h.len
    rcases k.point with hp | hp
    · rcases h.point with hq | hq
      · left; rw [hp, hq]
      · right; omega
    · right; omega

/-- Only blocks, point, pads and the two shared blocks matter. -/
theorem Grow.cast {a a' b b' : B} (g : Grow a b) (h1 : a'.blocks = a.blocks) (h2 : a'.point = a.point)
    (h3 : a'.pads = a.pads) (h4 : a'.prop = a.prop) (h5 : a'.poison = a.poison) (k1 : b'.blocks = b.blocks)
    (k2 : b'.point = b.point) (k3 : b'.pads = b.pads) (k4 : b'.prop = b.prop) (k5 : b'.poison = b.poison) :
    Grow a' b' := by
  constructor
  · rw [h1, k1]; exact g.len
  · rw [h1, h2, k1]; exact g.keep
  · rw [h1, h2, k1]; exact g.more
  · rw [h1, h3, k3]; exact g.pads
  · rw [h4, k4]; exact g.prop
  · rw [h5, k5]; exact g.poison
  · rw [h1, h2, k2]; exact g.point

theorem Grow.setPoint {b b' : B} (g : Grow b b') {r : Nat} (h : b.blocks.length ≤ r) :
    Grow b { b' with point := r } :=
  ⟨g.len, g.keep, g.more, g.pads, g.prop, g.poison, Or.inr h⟩

/-- A block that is there, empty, and neither current nor a pad. -/
structure Res (b : B) (r : Nat) : Prop where
  empty : b.blocks[r]? = some ⟨[], none⟩
  free : r ≠ b.point
  noPad : ∀ p ∈ b.pads, p.block ≠ r

theorem Res.lt {b : B} {r : Nat} (h : Res b r) : r < b.blocks.length := lt_of_get h.empty

theorem Res.grow {b b' : B} {r : Nat} (h : Res b r) (g : Grow b b') : Res b' r := by
  refine ⟨by rw [g.keep r h.lt h.free]; exact h.empty, ?_, ?_⟩
  · have := h.lt
    have := h.free
    rcases g.point with hp | hp <;> omega
  · obtain ⟨e, h1, h2⟩ := g.pads
    intro p hp
    rw [h1] at hp
    rcases List.mem_append.1 hp with hp | hp
    · exact h.noPad p hp
    · have := h2 p hp
      have := h.lt
      omega

/-- What is always true of the builder. -/
structure Core (b : B) : Prop where
  point : b.point < b.blocks.length
  pads : ∀ p ∈ b.pads, b.blocks[p.block]? = some ⟨[], none⟩ ∧ p.block ≠ b.point
  nodup : (b.pads.map (·.block)).Nodup
  prop : ∀ p, b.prop = some p → b.blocks[p]? = some ⟨[], some .propagate⟩
  poison : ∀ p, b.poison = some p → b.blocks[p]? = some ⟨[], some .poison⟩

theorem Core.cast {b b' : B} (c : Core b) (h1 : b'.blocks = b.blocks) (h2 : b'.point = b.point) (h3 : b'.pads = b.pads)
    (h4 : b'.prop = b.prop) (h5 : b'.poison = b.poison) : Core b' := by
  constructor
  · rw [h1, h2]; exact c.point
  · rw [h1, h2, h3]; exact c.pads
  · rw [h3]; exact c.nodup
  · rw [h1, h4]; exact c.prop
  · rw [h1, h5]; exact c.poison

theorem Core.setPoint {b : B} (c : Core b) {r : Nat} (h : Res b r) : Core { b with point := r } :=
  ⟨h.lt, fun p hp => ⟨(c.pads p hp).1, h.noPad p hp⟩, c.nodup, c.prop, c.poison⟩

/-- The current block is replaced by one with more in it. -/
theorem set_grow {b : B} {ops : List Op} {blk' : Block} (hb : b.blocks[b.point]? = some ⟨ops, none⟩)
    (hp : ops <+: blk'.ops) : Grow b { b with blocks := b.blocks.set b.point blk' } := by
  have hl := lt_of_get hb
  refine ⟨by simp, ?_, ?_, ⟨[], by simp⟩, fun _ h => h, fun _ h => h, Or.inl rfl⟩
  · intro i _ hne
    simp only
    rw [List.getElem?_set_ne (by omega)]
  · intro blk h
    rw [hb] at h
    cases h
    exact ⟨blk', by simp only; rw [List.getElem?_set_self hl], hp, fun t ht => by cases ht⟩

theorem set_core {b : B} (c : Core b) {ops : List Op} (hb : b.blocks[b.point]? = some ⟨ops, none⟩) (blk' : Block) :
    Core { b with blocks := b.blocks.set b.point blk' } := by
  refine ⟨by simpa using c.point, ?_, c.nodup, ?_, ?_⟩
  · intro p hp
    obtain ⟨h1, h2⟩ := c.pads p hp
    exact ⟨by simp only; rw [List.getElem?_set_ne (Ne.symm h2)]; exact h1, h2⟩
  · intro p hp
    have h1 := c.prop p hp
    have : p ≠ b.point := by rintro rfl; rw [hb] at h1; cases h1
    simp only; rw [List.getElem?_set_ne (Ne.symm this)]; exact h1
  · intro p hp
    have h1 := c.poison p hp
    have : p ≠ b.point := by rintro rfl; rw [hb] at h1; cases h1
    simp only; rw [List.getElem?_set_ne (Ne.symm this)]; exact h1

theorem append_inv {b b' : B} {o : Op} (h : b.append o = some b') :
    ∃ ops, b.blocks[b.point]? = some ⟨ops, none⟩ ∧
      b' = { b with blocks := b.blocks.set b.point ⟨ops ++ [o], none⟩ } := by
  unfold B.append at h
  split at h
  · rename_i ops hb
    exact ⟨ops, hb, by simpa using h.symm⟩
  · cases h

theorem terminate_inv {b b' : B} {t : Term} (h : b.terminate t = some b') :
    ∃ ops, b.blocks[b.point]? = some ⟨ops, none⟩ ∧
      b' = { b with blocks := b.blocks.set b.point ⟨ops, some t⟩ } := by
  unfold B.terminate at h
  split at h
  · rename_i ops hb
    exact ⟨ops, hb, by simpa using h.symm⟩
  · cases h

theorem append_ok {b b' : B} {o : Op} (c : Core b) (h : b.append o = some b') :
    Core b' ∧ Grow b b' ∧ b'.scopes = b.scopes ∧ b'.loops = b.loops ∧ b'.pads = b.pads := by
  obtain ⟨ops, hb, rfl⟩ := append_inv h
  exact ⟨set_core c hb _, set_grow hb (List.prefix_append _ _), rfl, rfl, rfl⟩

theorem terminate_ok {b b' : B} {t : Term} (c : Core b) (h : b.terminate t = some b') :
    Core b' ∧ Grow b b' ∧ b'.scopes = b.scopes ∧ b'.loops = b.loops ∧ b'.pads = b.pads := by
  obtain ⟨ops, hb, rfl⟩ := terminate_inv h
  exact ⟨set_core c hb _, set_grow hb List.prefix_rfl, rfl, rfl, rfl⟩

/-- New blocks at the end. -/
theorem more_grow (b : B) (new : List Block) : Grow b { b with blocks := b.blocks ++ new } := by
  refine ⟨by simp, ?_, ?_, ⟨[], by simp⟩, fun _ h => h, fun _ h => h, Or.inl rfl⟩
  · intro i hi _
    simp only
    rw [List.getElem?_append_left hi]
  · intro blk h
    exact ⟨blk, by simp only; rw [List.getElem?_append_left (lt_of_get h)]; exact h, List.prefix_rfl, fun _ _ => rfl⟩

theorem get_more {b : B} {i : Nat} {blk : Block} (h : b.blocks[i]? = some blk) (new : List Block) :
    (b.blocks ++ new)[i]? = some blk := by
  rw [List.getElem?_append_left (lt_of_get h)]; exact h

theorem more_core {b : B} (c : Core b) (new : List Block) : Core { b with blocks := b.blocks ++ new } := by
  refine ⟨?_, fun p hp => ⟨get_more (c.pads p hp).1 _, (c.pads p hp).2⟩, c.nodup,
    fun p hp => get_more (c.prop p hp) _, fun p hp => get_more (c.poison p hp) _⟩
  have := c.point
  simp only [List.length_append]
  omega

/-- A block beyond the old ones, empty, is reserved. -/
theorem more_res {b : B} (c : Core b) {new : List Block} {i : Nat} (h : new[i]? = some ⟨[], none⟩) :
    Res { b with blocks := b.blocks ++ new } (b.blocks.length + i) := by
  refine ⟨?_, ?_, ?_⟩
  · simp only
    rw [List.getElem?_append_right (by omega)]
    simpa using h
  · have := c.point
    simp only
    omega
  · intro p hp
    have := lt_of_get (c.pads p hp).1
    simp only at *
    omega

theorem add_core {b : B} (c : Core b) : Core b.add := more_core c _

theorem add_grow (b : B) : Grow b b.add := more_grow b _

theorem add_res {b : B} (c : Core b) : Res b.add b.blocks.length := by
  have := more_res (b := b) c (new := [⟨[], none⟩]) (i := 0) rfl
  exact this

/-- A reserved block becomes a pad. -/
theorem pushPad_core {b : B} (c : Core b) {r : Nat} (h : Res b r) (acts : List Op) (o : Option Nat) :
    Core { b with pads := b.pads ++ [⟨r, acts, o⟩] } := by
  refine ⟨c.point, ?_, ?_, c.prop, c.poison⟩
  · intro p hp
    rcases List.mem_append.1 hp with hp | hp
    · exact c.pads p hp
    · simp at hp
      subst hp
      exact ⟨h.empty, h.free⟩
  · simp only [List.map_append, List.map_cons, List.map_nil]
    rw [List.nodup_append]
    refine ⟨c.nodup, by simp, ?_⟩
    intro x hx y hy
    simp at hy
    subst hy
    obtain ⟨p, hp, rfl⟩ := List.mem_map.1 hx
    exact h.noPad p hp

theorem pushPad_grow {b b' : B} (g : Grow b b') {r : Nat} (h : b.blocks.length ≤ r) (acts : List Op) (o : Option Nat) :
    Grow b { b' with pads := b'.pads ++ [⟨r, acts, o⟩] } := by
  refine ⟨g.len, g.keep, g.more, ?_, g.prop, g.poison, g.point⟩
  obtain ⟨e, h1, h2⟩ := g.pads
  refine ⟨e ++ [⟨r, acts, o⟩], by simp [h1], ?_⟩
  intro p hp
  rcases List.mem_append.1 hp with hp | hp
  · exact h2 p hp
  · simp at hp
    subst hp
    exact h

/-! ### Chains of pads -/

/-- The pads `P` starting with `o` run the cleanup of these scopes, innermost first. -/
inductive Chain (P : List Pad) : List (List Op) → Option Nat → Prop
  | nil : Chain P [] none
  | skip {rest o} : Chain P rest o → Chain P ([] :: rest) o
  | pad {a rest o p} : (⟨p, a.reverse, o⟩ : Pad) ∈ P → Chain P rest o → Chain P (a :: rest) (some p)

theorem Chain.mono {P Q : List Pad} (h : ∀ p ∈ P, p ∈ Q) {A : List (List Op)} {o : Option Nat} (c : Chain P A o) :
    Chain Q A o := by
  induction c with
  | nil => exact .nil
  | skip _ ih => exact .skip ih
  | pad hm _ ih => exact .pad (h _ hm) ih

/-- The actions of the scopes. -/
def actsOf (scs : List Scope) : List (List Op) := scs.map (·.acts)

/-- The pads recorded on scopes are chains. -/
def ScopesOk (P : List Pad) : List Scope → Prop
  | [] => True
  | sc :: rest => (∀ p, sc.pad = some p → Chain P (actsOf (sc :: rest)) (some p)) ∧ ScopesOk P rest

theorem ScopesOk.mono {P Q : List Pad} (h : ∀ p ∈ P, p ∈ Q) : ∀ {scs : List Scope}, ScopesOk P scs → ScopesOk Q scs
  | [], _ => trivial
  | _ :: _, hs => ⟨fun p hp => (hs.1 p hp).mono h, hs.2.mono h⟩

theorem Grow.padsMono {b b' : B} (g : Grow b b') : ∀ p ∈ b.pads, p ∈ b'.pads := by
  obtain ⟨e, h, _⟩ := g.pads
  intro p hp
  rw [h]
  exact List.mem_append_left _ hp

/-- `b'` only adds new blocks and pads to `b`. -/
structure Side (b b' : B) : Prop where
  grow : Grow b b'
  same : ∀ i, i < b.blocks.length → b'.blocks[i]? = b.blocks[i]?
  point : b'.point = b.point
  scopes : b'.scopes = b.scopes
  loops : b'.loops = b.loops

theorem Side.rfl' (b : B) : Side b b := ⟨Grow.rfl' b, fun _ _ => rfl, rfl, rfl, rfl⟩

theorem Side.trans {a b c : B} (h : Side a b) (k : Side b c) : Side a c :=
  ⟨h.grow.trans k.grow, fun i hi => by rw [k.same i (lt_of_lt_of_le hi h.grow.len), h.same i hi], k.point.trans h.point,
    k.scopes.trans h.scopes, k.loops.trans h.loops⟩

theorem more_side (b : B) (new : List Block) : Side b { b with blocks := b.blocks ++ new } :=
  ⟨more_grow b new, fun i hi => by simp only; rw [List.getElem?_append_left hi], rfl, rfl, rfl⟩

theorem add_side (b : B) : Side b b.add := more_side b _

theorem Side.terminated {b b' : B} (c : Core b) (h : Side b b') : b'.terminated = b.terminated := by
  unfold B.terminated
  rw [h.point, h.same _ c.point]

theorem padOf_ok : ∀ (scs : List Scope) (b : B), Core b → ScopesOk b.pads scs →
    Core (padOf scs b).2.2 ∧ Side b (padOf scs b).2.2 ∧
      Chain (padOf scs b).2.2.pads (actsOf scs) (padOf scs b).1 ∧
      ScopesOk (padOf scs b).2.2.pads (padOf scs b).2.1 ∧ actsOf (padOf scs b).2.1 = actsOf scs
  | [], b, c, _ => ⟨c, Side.rfl' b, .nil, trivial, rfl⟩
  | sc :: rest, b, c, hs => by
    unfold padOf
    split
    · rename_i he
      obtain ⟨h1, h2, h3, h4, h5⟩ := padOf_ok rest b c hs.2
      refine ⟨h1, h2, ?_, ⟨?_, h4⟩, ?_⟩
      · simp only [actsOf, List.map_cons, he] at h3 ⊢
        exact .skip h3
      · intro p hp
        have := (hs.1 p hp).mono h2.grow.padsMono
        simp only [actsOf, List.map_cons] at this h5 ⊢
        rw [h5]; exact this
      · simp only [actsOf, List.map_cons] at h5 ⊢
        rw [h5]
    · rename_i he
      split
      · rename_i p hp
        exact ⟨c, Side.rfl' b, hs.1 p hp, hs, rfl⟩
      · rename_i hp
        obtain ⟨h1, h2, h3, h4, h5⟩ := padOf_ok rest b.add (add_core c) hs.2
        have hr : Res (padOf rest b.add).2.2 b.blocks.length := (add_res c).grow h2.grow
        have hmono : ∀ p ∈ (padOf rest b.add).2.2.pads, p ∈ (padOf rest b.add).2.2.pads ++
            [⟨b.blocks.length, sc.acts.reverse, (padOf rest b.add).1⟩] := fun p hp => List.mem_append_left _ hp
        have hch : Chain ((padOf rest b.add).2.2.pads ++
            [⟨b.blocks.length, sc.acts.reverse, (padOf rest b.add).1⟩]) (sc.acts :: actsOf rest)
            (some b.blocks.length) :=
          .pad (List.mem_append_right _ (by simp)) (h3.mono hmono)
        refine ⟨pushPad_core h1 hr _ _, ?_, hch, ⟨?_, h4.mono hmono⟩, ?_⟩
        · have hs' := (add_side b).trans h2
          exact ⟨pushPad_grow hs'.grow (le_refl _) _ _, hs'.same, hs'.point, hs'.scopes, hs'.loops⟩
        · intro p hp
          simp only [Option.some.injEq] at hp
          subst hp
          simp only [actsOf, List.map_cons] at hch h5 ⊢
          rw [h5]; exact hch
        · simp only [actsOf, List.map_cons] at h5 ⊢
          rw [h5]

/-! ### Operations that may fail -/

theorem propBlock_ok {b : B} (c : Core b) : Core b.propBlock.2 ∧ Side b b.propBlock.2 ∧
    b.propBlock.2.prop = some b.propBlock.1 ∧ b.propBlock.2.pads = b.pads := by
  unfold B.propBlock
  split
  · rename_i p hp
    exact ⟨c, Side.rfl' b, hp, rfl⟩
  · have hc := more_core c [⟨[], some .propagate⟩]
    have hs := more_side b [⟨[], some .propagate⟩]
    rename_i hp
    refine ⟨⟨hc.point, hc.pads, hc.nodup, ?_, hc.poison⟩, ⟨⟨hs.grow.len, hs.grow.keep, hs.grow.more, hs.grow.pads, ?_,
      hs.grow.poison, hs.grow.point⟩, hs.same, rfl, rfl, rfl⟩, rfl, rfl⟩
    · intro p h
      simp only [Option.some.injEq] at h
      subst h
      simp
    · intro p h
      rw [hp] at h; cases h

theorem poisonBlock_ok {b : B} (c : Core b) : Core b.poisonBlock.2 ∧ Side b b.poisonBlock.2 ∧
    b.poisonBlock.2.poison = some b.poisonBlock.1 ∧ b.poisonBlock.2.pads = b.pads := by
  unfold B.poisonBlock
  split
  · rename_i p hp
    exact ⟨c, Side.rfl' b, hp, rfl⟩
  · have hc := more_core c [⟨[], some .poison⟩]
    have hs := more_side b [⟨[], some .poison⟩]
    rename_i hp
    refine ⟨⟨hc.point, hc.pads, hc.nodup, hc.prop, ?_⟩, ⟨⟨hs.grow.len, hs.grow.keep, hs.grow.more, hs.grow.pads,
      hs.grow.prop, ?_, hs.grow.point⟩, hs.same, rfl, rfl, rfl⟩, rfl, rfl⟩
    · intro p h
      simp only [Option.some.injEq] at h
      subst h
      simp
    · intro p h
      rw [hp] at h; cases h

/-- What the error successor is for each target, given what is around. -/
def ErrOk (b : B) (A : List (List Op)) : Target → Nat → Prop
  | .scope, e => (Chain b.pads A (some e)) ∨ (Chain b.pads A none ∧ b.prop = some e)
  | .pad p, e => e = p
  | .propagate, e => b.prop = some e
  | .poison, e => b.poison = some e

theorem errorBlock_ok {b : B} (c : Core b) (hs : ScopesOk b.pads b.scopes) (t : Target) :
    let r := b.errorBlock t
    Core r.2 ∧ Grow b r.2 ∧ (∀ i, i < b.blocks.length → r.2.blocks[i]? = b.blocks[i]?) ∧ r.2.point = b.point ∧
      actsOf r.2.scopes = actsOf b.scopes ∧ ScopesOk r.2.pads r.2.scopes ∧ r.2.loops = b.loops ∧
      ErrOk r.2 (actsOf b.scopes) t r.1 := by
  cases t with
  | scope =>
    obtain ⟨h1, h2, h3, h4, h5⟩ := padOf_ok b.scopes b c hs
    simp only [B.errorBlock, B.innermost]
    cases hr : (padOf b.scopes b).1 with
    | some p =>
      simp only
      rw [hr] at h3
      exact ⟨h1.cast rfl rfl rfl rfl rfl, h2.grow.cast rfl rfl rfl rfl rfl rfl rfl rfl rfl rfl, h2.same, h2.point, h5, h4,
        h2.loops, Or.inl h3⟩
    | none =>
      simp only
      rw [hr] at h3
      have c1 : Core { (padOf b.scopes b).2.2 with scopes := (padOf b.scopes b).2.1 } := h1.cast rfl rfl rfl rfl rfl
      obtain ⟨k1, k2, k3, k4⟩ := propBlock_ok c1
      have g1 : Grow b { (padOf b.scopes b).2.2 with scopes := (padOf b.scopes b).2.1 } :=
        h2.grow.cast rfl rfl rfl rfl rfl rfl rfl rfl rfl rfl
      refine ⟨k1, g1.trans k2.grow, ?_, k2.point.trans h2.point, ?_, ?_, k2.loops.trans h2.loops, Or.inr ⟨?_, k3⟩⟩
      · intro i hi
        rw [k2.same i (lt_of_lt_of_le hi g1.len)]
        exact h2.same i hi
      · rw [k2.scopes]; exact h5
      · rw [k2.scopes, k4]; exact h4
      · rw [k4]; exact h3
  | pad p => exact ⟨c, Grow.rfl' b, fun _ _ => rfl, rfl, rfl, hs, rfl, rfl⟩
  | propagate =>
    obtain ⟨k1, k2, k3, k4⟩ := propBlock_ok c
    simp only [B.errorBlock]
    exact ⟨k1, k2.grow, k2.same, k2.point, by rw [k2.scopes], by rw [k2.scopes, k4]; exact hs, k2.loops, k3⟩
  | poison =>
    obtain ⟨k1, k2, k3, k4⟩ := poisonBlock_ok c
    simp only [B.errorBlock]
    exact ⟨k1, k2.grow, k2.same, k2.point, by rw [k2.scopes], by rw [k2.scopes, k4]; exact hs, k2.loops, k3⟩

/-- An invoked operation: the current block ends with it, and lowering goes on in a new empty block. -/
theorem invoke_ok {b b' : B} (c : Core b) (hs : ScopesOk b.pads b.scopes) {t : Target} {o : Op}
    (h : b.invoke t o = some b') :
    Core b' ∧ Grow b b' ∧ actsOf b'.scopes = actsOf b.scopes ∧ ScopesOk b'.pads b'.scopes ∧ b'.loops = b.loops ∧
      b'.blocks[b'.point]? = some ⟨[], none⟩ ∧
      ∃ ops e, b.blocks[b.point]? = some ⟨ops, none⟩ ∧
        b'.blocks[b.point]? = some ⟨ops, some (.invoke o b'.point e)⟩ ∧ ErrOk b' (actsOf b.scopes) t e := by
  unfold B.invoke at h
  obtain ⟨k1, k2, k3, k4, k5, k6, k7, k8⟩ := errorBlock_ok (add_core c) (t := t) hs
  simp only [Option.map_eq_some_iff] at h
  obtain ⟨b2, h1, rfl⟩ := h
  obtain ⟨ops, hb, hb2⟩ := terminate_inv h1
  obtain ⟨m1, m2, m3, m4, m5⟩ := terminate_ok k1 h1
  have hr : Res b2 b.blocks.length := ((add_res c).grow k2).grow m2
  have hlt : b.point < b.add.blocks.length := by
    have := c.point
    simp [B.add]; omega
  have hp : (b.add.errorBlock t).2.point = b.point := k4
  refine ⟨m1.setPoint hr, ((add_grow b).trans (k2.trans m2)).setPoint (le_refl _), ?_, ?_, ?_, hr.empty, ops,
    (b.add.errorBlock t).1, ?_, ?_, ?_⟩
  · simp only; rw [m3]; exact k5
  · simp only; rw [m3, m5]; exact k6
  · simp only; rw [m4]; exact k7
  · rw [hp, k3 _ hlt] at hb
    simp only [B.add] at hb
    rwa [List.getElem?_append_left c.point] at hb
  · simp only [hb2]
    rw [hp, List.getElem?_set_self (lt_of_lt_of_le hlt k2.len)]
  · subst hb2
    cases t <;> exact k8

theorem terminated_false {b : B} : b.terminated = false ↔ ∃ ops, b.blocks[b.point]? = some ⟨ops, none⟩ := by
  unfold B.terminated
  constructor
  · intro h
    split at h
    · rename_i blk hb
      obtain ⟨ops, t⟩ := blk
      cases t with
      | none => exact ⟨ops, hb⟩
      | some t => simp at h
    · cases h
  · rintro ⟨ops, h⟩
    rw [h]; rfl

/-! ### Cleanup -/

theorem emitCleanup_ok {b b' : B} (c : Core b) (hs : ScopesOk b.pads b.scopes) {t : Target} {o : Op}
    (h : b.emitCleanup t o = some b') :
    Core b' ∧ Grow b b' ∧ actsOf b'.scopes = actsOf b.scopes ∧ ScopesOk b'.pads b'.scopes ∧ b'.loops = b.loops ∧
      (b.terminated = false → b'.terminated = false) := by
  unfold B.emitCleanup at h
  split at h
  · cases h
    rename_i ht
    exact ⟨c, Grow.rfl' b, rfl, hs, rfl, fun h => h⟩
  · split at h
    · obtain ⟨h1, h2, h3, h4, h5, h6, _⟩ := invoke_ok c hs h
      exact ⟨h1, h2, h3, h4, h5, fun _ => terminated_false.2 ⟨[], h6⟩⟩
    · obtain ⟨h1, h2, h3, h4, h5⟩ := append_ok c h
      refine ⟨h1, h2, by rw [h3], by rw [h3, h5]; exact hs, h4, fun _ => ?_⟩
      obtain ⟨ops, hb, rfl⟩ := append_inv h
      exact terminated_false.2 ⟨ops ++ [o], by simp only; rw [List.getElem?_set_self (lt_of_get hb)]⟩

/-- The scopes do not matter when the target is not derived from them. -/
theorem emitCleanup_scopes {b b' : B} {t : Target} {o : Op} (ht : o.fallible = true → t ≠ .scope)
    (h : b.emitCleanup t o = some b') : b'.scopes = b.scopes := by
  unfold B.emitCleanup at h
  split at h
  · cases h; rfl
  · split at h
    · rename_i hf
      have := ht hf
      unfold B.invoke at h
      simp only [Option.map_eq_some_iff] at h
      obtain ⟨b2, h1, rfl⟩ := h
      obtain ⟨ops, _, rfl⟩ := terminate_inv h1
      simp only
      cases t with
      | scope => exact absurd rfl this
      | pad p => rfl
      | propagate => simp only [B.errorBlock, B.propBlock]; split <;> rfl
      | poison => simp only [B.errorBlock, B.poisonBlock]; split <;> rfl
    · obtain ⟨ops, _, rfl⟩ := append_inv h
      rfl

theorem actionTarget_ok {b : B} (c : Core b) (rest : List Op) (outer : Option Nat) :
    Core (b.actionTarget rest outer).2 ∧ Side b (b.actionTarget rest outer).2 ∧
      (b.actionTarget rest outer).1 ≠ .scope := by
  unfold B.actionTarget
  split
  · split
    · exact ⟨c, Side.rfl' b, by simp⟩
    · exact ⟨c, Side.rfl' b, by simp⟩
  · refine ⟨pushPad_core (add_core c) (add_res c) _ _, ?_, by simp⟩
    have hs := add_side b
    exact ⟨pushPad_grow hs.grow (le_refl _) _ _, hs.same, rfl, rfl, rfl⟩

theorem inline_ok : ∀ (acts : List Op) (outer : Option Nat) (b b' : B), Core b → ScopesOk b.pads b.scopes →
    inline acts outer b = some b' →
    Core b' ∧ Grow b b' ∧ b'.scopes = b.scopes ∧ b'.loops = b.loops ∧ (b.terminated = false → b'.terminated = false)
  | [], _, b, b', c, _, h => by
    simp only [inline, Option.some.injEq] at h
    subst h
    exact ⟨c, Grow.rfl' b, rfl, rfl, fun h => h⟩
  | a :: rest, outer, b, b', c, hs, h => by
    simp only [inline, Option.bind_eq_some_iff] at h
    obtain ⟨b1, h1, h2⟩ := h
    have hr : ∀ r : Target × B, r = (if a.fallible then b.actionTarget rest outer else (.scope, b)) →
        Core r.2 ∧ Side b r.2 ∧ (a.fallible = true → r.1 ≠ .scope) := by
      rintro r rfl
      split
      · rename_i hf
        obtain ⟨k1, k2, k3⟩ := actionTarget_ok c rest outer
        exact ⟨k1, k2, fun _ => k3⟩
      · rename_i hf
        exact ⟨c, Side.rfl' b, fun h => absurd h hf⟩
    obtain ⟨k1, k2, k3⟩ := hr _ rfl
    have hs1 := hs.mono k2.grow.padsMono
    rw [← k2.scopes] at hs1
    obtain ⟨m1, m2, m3, m4, m5, m6⟩ := emitCleanup_ok k1 hs1 h1
    have m7 := emitCleanup_scopes k3 h1
    obtain ⟨n1, n2, n3, n4, n5⟩ := inline_ok rest outer b1 b' m1 m4 h2
    refine ⟨n1, (k2.grow.trans m2).trans n2, ?_, ?_, fun ht => n5 (m6 ?_)⟩
    · rw [n3, m7, k2.scopes]
    · rw [n4, m5, k2.loops]
    · rw [k2.terminated c]; exact ht

theorem unwind_ok : ∀ (k : Nat) (scs : List Scope) (b : B) (scs' : List Scope) (b' : B), Core b →
    ScopesOk b.pads b.scopes → ScopesOk b.pads scs →
    unwind k scs b = some (scs', b') →
    Core b' ∧ Grow b b' ∧ ScopesOk b'.pads scs' ∧ actsOf scs' = actsOf scs ∧ b'.scopes = b.scopes ∧ b'.loops = b.loops ∧
      (b.terminated = false → b'.terminated = false)
  | 0, scs, b, scs', b', c, _, hs, h => by
    simp only [unwind, Option.some.injEq, Prod.mk.injEq] at h
    obtain ⟨rfl, rfl⟩ := h
    exact ⟨c, Grow.rfl' b, hs, rfl, rfl, rfl, fun h => h⟩
  | k + 1, [], b, scs', b', c, _, hs, h => by
    simp only [unwind, Option.some.injEq, Prod.mk.injEq] at h
    obtain ⟨rfl, rfl⟩ := h
    exact ⟨c, Grow.rfl' b, hs, rfl, rfl, rfl, fun h => h⟩
  | k + 1, sc :: rest, b, scs', b', c, hb, hs, h => by
    simp only [unwind, Option.bind_eq_some_iff, Option.map_eq_some_iff] at h
    obtain ⟨b1, h1, ⟨scs2, b2⟩, h2, h3⟩ := h
    simp only [Prod.mk.injEq] at h3
    obtain ⟨rfl, rfl⟩ := h3
    have hr : ∀ r : Option Nat × List Scope × B,
        r = (if sc.acts.reverse.any Op.fallible then padOf rest b else (none, rest, b)) →
        Core r.2.2 ∧ Side b r.2.2 ∧ ScopesOk r.2.2.pads r.2.1 ∧ actsOf r.2.1 = actsOf rest := by
      rintro r rfl
      split
      · obtain ⟨k1, k2, k3, k4, k5⟩ := padOf_ok rest b c hs.2
        exact ⟨k1, k2, k4, k5⟩
      · exact ⟨c, Side.rfl' b, hs.2, rfl⟩
    obtain ⟨k1, k2, k3, k4⟩ := hr _ rfl
    have hb1 := hb.mono k2.grow.padsMono
    rw [← k2.scopes] at hb1
    obtain ⟨m1, m2, m3, m4, m5⟩ := inline_ok _ _ _ _ k1 hb1 h1
    have hb2 := hb1.mono m2.padsMono
    rw [← m3] at hb2
    obtain ⟨n1, n2, n3, n4, n5, n6, n7⟩ := unwind_ok k _ _ _ _ m1 hb2 (k3.mono m2.padsMono) h2
    refine ⟨n1, (k2.grow.trans m2).trans n2, ⟨?_, n3⟩, ?_, ?_, ?_, ?_⟩
    · intro p hp
      have := (hs.1 p hp).mono ((k2.grow.trans m2).trans n2).padsMono
      simp only [actsOf, List.map_cons] at this n4 k4 ⊢
      rw [n4, k4]; exact this
    · simp only [actsOf, List.map_cons] at n4 k4 ⊢
      rw [n4, k4]
    · rw [n5, m3, k2.scopes]
    · rw [n6, m4, k2.loops]
    · intro ht
      exact n7 (m5 (by rw [k2.terminated c]; exact ht))

/-! ### Nodes -/

/-- Core, pads, and the depths of loops. -/
structure Fine (b : B) : Prop where
  core : Core b
  scopes : ScopesOk b.pads b.scopes
  loops : ∀ l fr, frameOf b.loops l = some fr → fr.depth ≤ b.scopes.length

/-- The relation between the builder before and after a node. -/
structure After (b b' : B) : Prop where
  fine : Fine b'
  grow : Grow b b'
  acts : actsOf b'.scopes = actsOf b.scopes
  loops : ∀ l fr, frameOf b'.loops l = some fr → frameOf b.loops l = some fr

theorem actsOf_length (scs : List Scope) : (actsOf scs).length = scs.length := by simp [actsOf]

theorem After.trans {a b c : B} (h : After a b) (k : After b c) : After a c :=
  ⟨k.fine, h.grow.trans k.grow, k.acts.trans h.acts, fun l fr hf => h.loops l fr (k.loops l fr hf)⟩

theorem After.rfl' {b : B} (f : Fine b) : After b b := ⟨f, Grow.rfl' b, rfl, fun _ _ h => h⟩

theorem After.mk' {b b' : B} (f : Fine b) (c : Core b') (g : Grow b b') (ha : actsOf b'.scopes = actsOf b.scopes)
    (hs : ScopesOk b'.pads b'.scopes) (hl : b'.loops = b.loops) : After b b' := by
  refine ⟨⟨c, hs, ?_⟩, g, ha, by rw [hl]; exact fun _ _ h => h⟩
  intro l fr h
  rw [hl] at h
  rw [← actsOf_length, ha, actsOf_length]
  exact f.loops l fr h

theorem insert_ok {b b' : B} (f : Fine b) {o : Op} (h : b.insert o = some b') : After b b' := by
  unfold B.insert at h
  split at h
  · obtain ⟨h1, h2, h3, h4, h5, _⟩ := invoke_ok f.core f.scopes h
    exact After.mk' f h1 h2 h3 h4 h5
  · obtain ⟨h1, h2, h3, h4, h5⟩ := append_ok f.core h
    exact After.mk' f h1 h2 (by rw [h3]) (by rw [h3, h5]; exact f.scopes) h4

theorem term_after {b b' : B} (f : Fine b) {t : Term} (h : b.terminate t = some b') : After b b' := by
  obtain ⟨h1, h2, h3, h4, h5⟩ := terminate_ok f.core h
  exact After.mk' f h1 h2 (by rw [h3]) (by rw [h3, h5]; exact f.scopes) h4

theorem goto_after {b b' : B} (f : Fine b) {t : Nat} (h : b.gotoUnless t = some b') : After b b' := by
  unfold B.gotoUnless at h
  split at h
  · cases h; exact After.rfl' f
  · exact term_after f h

theorem unwindTo_ok {b b' : B} (f : Fine b) {d : Nat} (h : b.unwindTo d = some b') :
    After b b' ∧ (b.terminated = false → b'.terminated = false) := by
  simp only [B.unwindTo, Option.map_eq_some_iff] at h
  obtain ⟨⟨scs, b1⟩, h1, rfl⟩ := h
  obtain ⟨k1, k2, k3, k4, k5, k6, k7⟩ := unwind_ok _ _ _ _ _ f.core f.scopes f.scopes h1
  exact ⟨After.mk' f (k1.cast rfl rfl rfl rfl rfl) (k2.cast rfl rfl rfl rfl rfl rfl rfl rfl rfl rfl) k4 k3 k6, k7⟩

theorem enterScope_fine {b : B} (f : Fine b) (acts : List Op) :
    Fine { b with scopes := ⟨acts, none⟩ :: b.scopes } :=
  ⟨f.core.cast rfl rfl rfl rfl rfl, ⟨fun p hp => by simp at hp, f.scopes⟩, fun l fr h => by
    have := f.loops l fr h
    simp only [List.length_cons]; omega⟩

/-- Leaving the scope entered before. -/
theorem exitScope_ok {b0 b b' : B} (f0 : Fine b0) (f : Fine b) (g : Grow b0 b) {acts : List Op}
    (ha : actsOf b.scopes = acts :: actsOf b0.scopes) (hl : ∀ l fr, frameOf b.loops l = some fr → frameOf b0.loops l = some fr)
    (h : b.exitScope = some b') : After b0 b' := by
  unfold B.exitScope at h
  split at h
  · cases h
  · rename_i sc rest hsc
    rw [hsc] at ha
    simp only [actsOf, List.map_cons, List.cons.injEq] at ha
    obtain ⟨ha1, ha2⟩ := ha
    have fs := f.scopes
    rw [hsc] at fs
    have c1 : Core { b with scopes := rest } := f.core.cast rfl rfl rfl rfl rfl
    have hr : ∀ r : Option Nat × B,
        r = (if sc.acts.reverse.any Op.fallible then ({ b with scopes := rest } : B).innermost else (none, { b with scopes := rest })) →
        Core r.2 ∧ Grow b r.2 ∧ ScopesOk r.2.pads r.2.scopes ∧ actsOf r.2.scopes = actsOf rest ∧ r.2.loops = b.loops := by
      rintro r rfl
      split
      · obtain ⟨k1, k2, k3, k4, k5⟩ := padOf_ok rest { b with scopes := rest } c1 fs.2
        exact ⟨k1.cast rfl rfl rfl rfl rfl, k2.grow.cast rfl rfl rfl rfl rfl rfl rfl rfl rfl rfl, k4, k5, k2.loops⟩
      · exact ⟨c1, (Grow.rfl' b).cast rfl rfl rfl rfl rfl rfl rfl rfl rfl rfl, fs.2, rfl, rfl⟩
    obtain ⟨k1, k2, k3, k4, k5⟩ := hr _ rfl
    obtain ⟨m1, m2, m3, m4, m5⟩ := inline_ok _ _ _ _ k1 k3 h
    have hacts : actsOf b'.scopes = actsOf b0.scopes := by rw [m3, k4]; exact ha2
    have hloops : ∀ l fr, frameOf b'.loops l = some fr → frameOf b0.loops l = some fr := by
      rw [m4, k5]; exact hl
    refine ⟨⟨m1, ?_, ?_⟩, (g.trans k2).trans m2, hacts, hloops⟩
    · rw [m3]; exact k3.mono m2.padsMono
    · intro l fr h'
      rw [← actsOf_length, hacts, actsOf_length]
      exact f0.loops l fr (hloops l fr h')

theorem frameOf_filter {loops : List (Nat × Frame)} {l l' : Nat} {fr : Frame}
    (h : frameOf (loops.filter (fun e => e.1 != l)) l' = some fr) : l' ≠ l ∧ frameOf loops l' = some fr := by
  induction loops with
  | nil => simp [frameOf] at h
  | cons e rest ih =>
    unfold frameOf at h ih ⊢
    by_cases he : e.1 = l
    · have hf : (e.1 != l) = false := by simp [he]
      rw [List.filter_cons_of_neg (by simp [he])] at h
      obtain ⟨h1, h2⟩ := ih h
      refine ⟨h1, ?_⟩
      have : (e.1 == l') = false := by simp only [beq_eq_false_iff_ne]; omega
      rw [List.find?_cons, this]
      exact h2
    · rw [List.filter_cons_of_pos (by simp [he])] at h
      rw [List.find?_cons] at h ⊢
      by_cases he' : e.1 = l'
      · have : (e.1 == l') = true := by simp [he']
        rw [this] at h ⊢
        exact ⟨by omega, h⟩
      · have : (e.1 == l') = false := by simp [he']
        rw [this] at h ⊢
        exact ih h

theorem addMany_res {b : B} (c : Core b) {n i : Nat} (h : i < n) : Res (b.addMany n) (b.blocks.length + i) :=
  more_res c (by simp [h])

theorem Fine.cast {b b' : B} (f : Fine b) (h1 : Core b') (h2 : b'.scopes = b.scopes) (h3 : b'.pads = b.pads)
    (h4 : b'.loops = b.loops) : Fine b' :=
  ⟨h1, by rw [h2, h3]; exact f.scopes, by rw [h2, h4]; exact f.loops⟩

theorem Fine.setPoint {b : B} (f : Fine b) {r : Nat} (h : Res b r) : Fine { b with point := r } :=
  f.cast (f.core.setPoint h) rfl rfl rfl

theorem Fine.addMany {b : B} (f : Fine b) (n : Nat) : Fine (b.addMany n) :=
  f.cast (more_core f.core _) rfl rfl rfl

theorem after_addMany {b : B} (f : Fine b) (n : Nat) : After b (b.addMany n) :=
  ⟨f.addMany n, more_grow b _, rfl, fun _ _ h => h⟩

theorem After.setPoint {b b' : B} (h : After b b') {r : Nat} (hr : Res b' r) (hl : b.blocks.length ≤ r) :
    After b { b' with point := r } :=
  ⟨h.fine.setPoint hr, h.grow.setPoint hl, h.acts, h.loops⟩

theorem Arms.blocks_bound : ∀ (arms : Arms) (i : Nat), ∀ e ∈ arms.blocks i,
    i ≤ e.1 ∧ e.1 < i + 2 * arms.count ∧ i ≤ e.2 ∧ e.2 < i + 2 * arms.count
  | .other _, _, e, h => by simp [Arms.blocks] at h
  | .alt _ _ rest, i, e, h => by
    simp only [Arms.blocks, List.mem_cons] at h
    simp only [Arms.count]
    rcases h with rfl | h
    · simp only; omega
    · have := Arms.blocks_bound rest (i + 2) e h
      omega

/-- The blocks still reserved for the alternatives from number `i` on, the default and the tail. -/
def ArmsRes (b : B) (arms : Arms) (i : Nat) : Prop :=
  ∀ j, j < 2 * arms.count + 2 → Res b (i + j)

theorem Res.setPoint {b : B} {r q : Nat} (h : Res b r) (hn : r ≠ q) : Res { b with point := q } r :=
  ⟨h.empty, hn, h.noPad⟩

theorem After.res {b b' : B} (h : After b b') {r : Nat} (hr : Res b r) : Res b' r := hr.grow h.grow

/-- A loop: its blocks are reserved and its label is the innermost. -/
theorem loop_start {b : B} (f : Fine b) (l : Nat) :
    Fine { b.addMany 2 with
      loops := (l, ⟨b.blocks.length, b.blocks.length + 1, b.scopes.length⟩) :: b.loops.filter (fun e => e.1 != l) } := by
  refine ⟨(f.addMany 2).core.cast rfl rfl rfl rfl rfl, (f.addMany 2).scopes, ?_⟩
  intro l' fr h
  simp only [frameOf, List.find?_cons] at h
  by_cases he : l = l'
  · have : (l == l') = true := by simp [he]
    rw [this] at h
    simp only [Option.map_some, Option.some.injEq] at h
    subst h
    exact le_refl _
  · have : (l == l') = false := by simp [he]
    rw [this] at h
    exact f.loops l' fr (frameOf_filter h).2

mutual
theorem lower_after : ∀ (n : Node) (b b' : B), Fine b → lower n b = some b' → After b b'
  | .op a fl, b, b', f, h => insert_ok f h
  | .block xs body, b, b', f, h => by
    simp only [lower, Option.bind_eq_some_iff] at h
    obtain ⟨b1, h1, h2⟩ := h
    have f1 := enterScope_fine f (xs.map .drop)
    have k := lowerAll_after body _ b1 f1 h1
    exact exitScope_ok f k.fine (k.grow.cast rfl rfl rfl rfl rfl rfl rfl rfl rfl rfl) k.acts k.loops h2
  | .case n arms, b, b', f, h => by
    simp only [lower, Option.bind_eq_some_iff] at h
    obtain ⟨b1, h1, b2, h2, h3⟩ := h
    have k0 := after_addMany f (2 * arms.count + 2)
    have k1 := lower_after n _ b1 k0.fine h1
    have k2 := term_after k1.fine h2
    refine lowerArms_after arms b.blocks.length b b2 b' f ((k0.trans k1).trans k2) (le_refl _) ?_ h3
    intro j hj
    exact k2.res (k1.res (addMany_res f.core hj))
  | .loop l body, b, b', f, h => by
    simp only [lower, Option.bind_eq_some_iff, Option.map_eq_some_iff] at h
    obtain ⟨b2, h2, b3, h3, b4, h4, rfl⟩ := h
    have f1 := loop_start f l
    have k2 := term_after f1 h2
    have r0 : Res b2 b.blocks.length :=
      k2.res (Res.grow (r := b.blocks.length) (addMany_res (i := 0) f.core (n := 2) (by omega))
        ((Grow.rfl' _).cast rfl rfl rfl rfl rfl rfl rfl rfl rfl rfl))
    have r1 : Res b2 (b.blocks.length + 1) :=
      k2.res (Res.grow (addMany_res (i := 1) f.core (n := 2) (by omega))
        ((Grow.rfl' _).cast rfl rfl rfl rfl rfl rfl rfl rfl rfl rfl))
    have f2 := k2.fine.setPoint r0
    have k3 := lower_after body _ b3 f2 h3
    have k4 := goto_after k3.fine h4
    have r2 : Res b4 (b.blocks.length + 1) := k4.res (k3.res (r1.setPoint (by omega)))
    have g : Grow b b4 := by
      have g1 : Grow b b2 := Grow.trans (b := { b.addMany 2 with
          loops := (l, ⟨b.blocks.length, b.blocks.length + 1, b.scopes.length⟩) :: b.loops.filter (fun e => e.1 != l) })
        ((more_grow b (List.replicate 2 ⟨[], none⟩)).cast rfl rfl rfl rfl rfl rfl rfl rfl rfl rfl) k2.grow
      exact ((g1.setPoint (le_refl _)).trans k3.grow).trans k4.grow
    have hacts : actsOf b4.scopes = actsOf b.scopes := by
      rw [k4.acts, k3.acts]
      exact k2.acts
    have hl : ∀ l' fr, frameOf (b4.loops.filter (fun e => e.1 != l)) l' = some fr → frameOf b.loops l' = some fr := by
      intro l' fr hf
      obtain ⟨hne, hf⟩ := frameOf_filter hf
      have := k2.loops l' fr (k3.loops l' fr (k4.loops l' fr hf))
      simp only [frameOf, List.find?_cons] at this
      have hb : (l == l') = false := by simp [Ne.symm hne]
      rw [hb] at this
      exact (frameOf_filter this).2
    refine ⟨⟨?_, k4.fine.scopes, ?_⟩, ?_, hacts, hl⟩
    · exact (k4.fine.core.setPoint r2).cast rfl rfl rfl rfl rfl
    · intro l' fr hf
      have := f.loops l' fr (hl l' fr hf)
      simp only
      rw [← actsOf_length, hacts, actsOf_length]
      exact this
    · exact (g.setPoint (r := b.blocks.length + 1) (by omega)).cast rfl rfl rfl rfl rfl rfl rfl rfl rfl rfl
  | .brk l v, b, b', f, h => by
    simp only [lower, Option.bind_eq_some_iff] at h
    obtain ⟨fr, hfr, b1, h1, h2⟩ := h
    have k1 := lower_after v b b1 f h1
    split at h2
    · cases h2; exact k1
    · simp only [Option.bind_eq_some_iff] at h2
      obtain ⟨b2, h2, h3⟩ := h2
      have k2 := (unwindTo_ok k1.fine h2).1
      exact (k1.trans k2).trans (term_after k2.fine h3)
  | .cont l, b, b', f, h => by
    simp only [lower, Option.bind_eq_some_iff] at h
    obtain ⟨fr, hfr, b1, h1, h2⟩ := h
    have k1 := (unwindTo_ok f h1).1
    exact k1.trans (term_after k1.fine h2)
  | .ret v, b, b', f, h => by
    simp only [lower, Option.bind_eq_some_iff] at h
    obtain ⟨b1, h1, b2, h2, h3⟩ := h
    have k1 := lower_after v b b1 f h1
    have k2 := (unwindTo_ok k1.fine h2).1
    exact (k1.trans k2).trans (term_after k2.fine h3)
  | .scoped xs pre args p fl body, b, b', f, h => by
    simp only [lower, Option.bind_eq_some_iff] at h
    obtain ⟨b1, h1, h⟩ := h
    have k1 := lowerAll_after pre b b1 f h1
    split at h
    · simp only [Option.bind_eq_some_iff] at h
      obtain ⟨b2, h2, h3⟩ := h
      have k2 := lower_after body _ b2 (enterScope_fine k1.fine []) h2
      exact k1.trans (exitScope_ok k1.fine k2.fine (k2.grow.cast rfl rfl rfl rfl rfl rfl rfl rfl rfl rfl) k2.acts k2.loops h3)
    · simp only [Option.bind_eq_some_iff] at h
      obtain ⟨b2, h2, b3, h3, h⟩ := h
      have k2 := lowerEach_after args b1 b2 k1.fine h2
      have k3 := insert_ok (enterScope_fine k2.fine (xs.map .drop)) h3
      split at h
      · cases h
      · rename_i sc rest hsc
        simp only [Option.bind_eq_some_iff] at h
        obtain ⟨b4, h4, h5⟩ := h
        have ha := k3.acts
        rw [hsc] at ha
        simp only [actsOf, List.map_cons, List.cons.injEq] at ha
        have fs := k3.fine.scopes
        rw [hsc] at fs
        have f4 : Fine { b3 with scopes := ⟨sc.acts ++ [.slide p fl], none⟩ :: rest } := by
          refine ⟨k3.fine.core.cast rfl rfl rfl rfl rfl, ⟨fun p hp => by simp at hp, fs.2⟩, ?_⟩
          intro l fr hf
          have := k3.fine.loops l fr hf
          rw [hsc] at this
          simpa using this
        have k4 := lower_after body _ b4 f4 h4
        have g4 : Grow b2 b4 := (k3.grow.cast (a' := b2) (b' := b3) rfl rfl rfl rfl rfl rfl rfl rfl rfl rfl).trans
          (k4.grow.cast rfl rfl rfl rfl rfl rfl rfl rfl rfl rfl)
        refine (k1.trans k2).trans (exitScope_ok (acts := sc.acts ++ [.slide p fl]) k2.fine k4.fine g4 ?_ ?_ h5)
        · rw [k4.acts]
          simp only [actsOf, List.map_cons, List.cons.injEq, true_and]
          exact ha.2
        · intro l fr hf
          exact k3.loops l fr (k4.loops l fr hf)

theorem lowerAll_after : ∀ (ns : Nodes) (b b' : B), Fine b → lowerAll ns b = some b' → After b b'
  | .nil, b, b', f, h => by
    simp only [lowerAll, Option.some.injEq] at h
    subst h
    exact After.rfl' f
  | .cons n rest, b, b', f, h => by
    simp only [lowerAll] at h
    split at h
    · cases h; exact After.rfl' f
    · simp only [Option.bind_eq_some_iff] at h
      obtain ⟨b1, h1, h2⟩ := h
      have k1 := lower_after n b b1 f h1
      exact k1.trans (lowerAll_after rest b1 b' k1.fine h2)

theorem lowerEach_after : ∀ (ns : Nodes) (b b' : B), Fine b → lowerEach ns b = some b' → After b b'
  | .nil, b, b', f, h => by
    simp only [lowerEach, Option.some.injEq] at h
    subst h
    exact After.rfl' f
  | .cons n rest, b, b', f, h => by
    simp only [lowerEach, Option.bind_eq_some_iff] at h
    obtain ⟨b1, h1, h2⟩ := h
    have k1 := lower_after n b b1 f h1
    exact k1.trans (lowerEach_after rest b1 b' k1.fine h2)

theorem lowerArms_after : ∀ (arms : Arms) (i : Nat) (b0 b b' : B), Fine b0 → After b0 b → b0.blocks.length ≤ i →
    ArmsRes b arms i →
    lowerArms arms (arms.blocks i) (i + 2 * arms.count) (i + 2 * arms.count + 1) b = some b' → After b0 b'
  | .other n, i, b0, b, b', f0, k, hi, hr, h => by
    simp only [lowerArms, Arms.count, Option.bind_eq_some_iff, Option.map_eq_some_iff, Nat.mul_zero, Nat.add_zero] at h
    obtain ⟨b1, h1, b2, h2, rfl⟩ := h
    have r0 : Res b i := hr 0 (by omega)
    have r1 : Res b (i + 1) := hr 1 (by omega)
    have k1 := lower_after n _ b1 (k.fine.setPoint r0) h1
    have k2 := goto_after k1.fine h2
    have r2 := k2.res (k1.res (r1.setPoint (q := i) (by omega)))
    exact (((k.setPoint r0 hi).trans k1).trans k2).setPoint r2 (by omega)
  | .alt t n rest, i, b0, b, b', f0, k, hi, hr, h => by
    simp only [lowerArms, Arms.blocks, Arms.count, Option.bind_eq_some_iff] at h
    obtain ⟨b1, h1, b2, h2, b3, h3, h4⟩ := h
    have r0 : Res b i := hr 0 (by omega)
    have k0 := k.setPoint r0 hi
    have k1 := term_after k0.fine h1
    have hres : ∀ j, 0 < j → j < 2 * (rest.count + 1) + 2 → Res b1 (i + j) := fun j h0 hj =>
      k1.res ((hr j (by simpa [Arms.count] using hj)).setPoint (by omega))
    have r1 : Res b1 (i + 1) := hres 1 (by omega) (by omega)
    have k1' := (k0.trans k1).setPoint r1 (by omega)
    have k2 := lower_after n _ b2 k1'.fine h2
    have k3 := goto_after k2.fine h3
    have e : i + 2 * (rest.count + 1) = (i + 2) + 2 * rest.count := by omega
    rw [e] at h4
    refine lowerArms_after rest (i + 2) b0 b3 b' f0 ((k1'.trans k2).trans k3) (by omega) ?_ h4
    intro j hj
    refine k3.res (k2.res (Res.setPoint ?_ (by omega)))
    have := hres (2 + j) (by omega) (by omega)
    rwa [← Nat.add_assoc] at this
end

end Ferlium.Cleanup
