import Verif.Proofs.Specialize

/-!
# C96: specializing generic functions at call sites keeps runs

The machine is that of `Verif.Model.Inline`. `Formed` lists what is expected of the program before
the pass, `Pass` how the program after it is made.
-/

namespace Ferlium.Specialize

open Inline DeadEvidence

variable {P V C W E : Type}

/-- **C96.** A specialization does exactly what the generic function does with the dictionaries it
was made for: the same ends are reached, with the same results, memory and world.

Not shown: runs that do not end, and what `simplify_after_substitution` does to the body. -/
theorem C96_specialization_runs_partial (sem : Sem P V C W E) {env : Env}
    {choose : Nat → Nat → List Nat → Option Nat} {sp : Nat → Prop} {keys : Nat → Key → Prop}
    {tabA : Nat → Option Body} {tabB : Nat → Option Fn}
    (hf : Formed sem env sp keys tabA) (hp : Pass env choose sp keys tabA tabB)
    {g : Nat} {k : Key} (hk : keys g k) (d : Nat) (rest : List (View P V)) (m : Mem C W)
    (hrest : ∀ v ∈ rest, ∀ f, v = .fn f → ¬ sp f) (r : Out P V C W E) :
    Run sem (fun f => (tabA f).map (·.fn)) (.func d k.orig (k.dicts.map View.const ++ rest) m) r ↔
      Run sem tabB (.func d g (k.dicts.map View.const ++ rest) m) r := by
  have hm : Meets (P := P) (V := V) (fun p => k.dicts[p]?) (k.dicts.map View.const ++ rest) := by
    intro p c hpc
    have hlt := (List.getElem?_eq_some_iff.1 hpc).1
    rw [List.getElem?_append_left (by simpa using hlt), List.getElem?_map]
    simp only at hpc
    rw [hpc]
    rfl
  have hc : ∀ v ∈ k.dicts.map View.const ++ rest, CleanView sp v := by
    intro v hv
    rcases List.mem_append.1 hv with hv | hv
    · obtain ⟨c, -, rfl⟩ := List.mem_map.1 hv
      intro f hf
      cases hf
    · exact hrest v hv
  have hK : Corr sp keys k.orig g fun p => k.dicts[p]? := .inr ⟨k, hk, rfl, rfl⟩
  exact ⟨fun h => (transfer (link hp hf) h _ (.func hK hm hc)).1,
    fun h => (transfer (link hp hf).symm h _ (.func hK hm hc)).1⟩

/-- **C96.** Every other function does after the pass what it did before, although its calls go to
specializations now. -/
theorem C96_program_runs_partial (sem : Sem P V C W E) {env : Env}
    {choose : Nat → Nat → List Nat → Option Nat} {sp : Nat → Prop} {keys : Nat → Key → Prop}
    {tabA : Nat → Option Body} {tabB : Nat → Option Fn}
    (hf : Formed sem env sp keys tabA) (hp : Pass env choose sp keys tabA tabB)
    {f : Nat} (hsp : ¬ sp f) (d : Nat) (args : List (View P V)) (m : Mem C W)
    (hargs : ∀ v ∈ args, ∀ f, v = .fn f → ¬ sp f) (r : Out P V C W E) :
    Run sem (fun f => (tabA f).map (·.fn)) (.func d f args m) r ↔
      Run sem tabB (.func d f args m) r := by
  have hK : Corr sp keys f f fun _ => none := .inl ⟨rfl, hsp, rfl⟩
  exact ⟨fun h => (transfer (link hp hf) h _ (.func hK (by simp [Meets]) hargs)).1,
    fun h => (transfer (link hp hf).symm h _ (.func hK (by simp [Meets]) hargs)).1⟩

/-- The body reads the parameter. -/
def Reads (F : Fn) (p : Nat) : Prop :=
  (∃ op, Contains F op ∧ Operand.param p ∈ op.operands) ∨
    ∃ blk ∈ F.blocks, (∃ a b, blk.term = .condBr (.param p) a b) ∨ ∃ t, blk.term = .yield (.param p) t

/-- **C96.** A specialization reads none of its dictionary parameters, which is what their removal
(C94) asks for. -/
theorem C96_no_dictionary_read {env : Env} {k : Key} {g : Nat} {b : Body} {S : Fn}
    (h : specialize env k g b = some S) (p : Nat) (hd : b.dict[p]? = some true) : ¬ Reads S p := by
  obtain ⟨D, hD, hm⟩ := Option.bind_eq_some_iff.1 h
  unfold bindDictionaries at hD
  split at hD
  · cases hD
  rename_i hcount
  have hb : ∃ c, boundTo b.dict k.dicts p = some c := bound_some _ _ p (by simpa using hcount) hd
  obtain ⟨c, hb⟩ := hb
  simp only [Option.some.injEq] at hD
  subst hD
  obtain ⟨-, h2⟩ := mapOps_map hm
  simp only [] at h2
  rw [List.forall₂_map_left_iff] at h2
  have hnot : ∀ o, bindOperand (boundTo b.dict k.dicts) o ≠ .param p := by
    intro o
    cases o with
    | param q =>
      simp only [bindOperand]
      split
      · simp
      · intro he
        cases he
        simp_all
    | _ => simp [bindOperand]
  have hop : ∀ op op', redirectOp env k.orig g (bindOp k.subst (boundTo b.dict k.dicts) op) = some op' →
      Operand.param p ∉ op'.operands := by
    intro op op' hr hmem
    have hmap : Operand.param p ∉ (bindOp k.subst (boundTo b.dict k.dicts) op).operands := by
      intro hmem
      obtain ⟨o, -, ho⟩ := List.mem_map.1 hmem
      exact hnot o ho
    unfold redirectOp at hr
    split at hr
    · split at hr
      · cases hr
      · rename_i o t hos
        split at hr
        · cases hr
          simp only [List.mem_cons, reduceCtorEq, false_or] at hmem
          rw [hos] at hmap
          exact hmap (List.mem_cons_of_mem _ hmem)
        · cases hr
          exact hmap hmem
    · cases hr
      exact hmap hmem
  have hblk : ∀ z ∈ S.blocks, ∃ x : Block, BlockMap
      (fun a b => redirectOp env k.orig g a = some b)
      ⟨x.ops.map (bindOp k.subst (boundTo b.dict k.dicts)),
        bindTerm k.subst (boundTo b.dict k.dicts) x.term⟩ z := by
    intro z hz
    obtain ⟨i, hi, rfl⟩ := List.mem_iff_getElem.1 hz
    exact ⟨_, List.Forall₂.get h2 (by rw [h2.length_eq]; exact hi) hi⟩
  rintro (⟨op', ⟨z, hz, hin⟩, hmem⟩ | ⟨z, hz, ht⟩)
  · obtain ⟨x, hx1, hx2⟩ := hblk z hz
    rcases hin with hin | ⟨n, e, ht⟩
    · simp only [List.forall₂_map_left_iff] at hx1
      obtain ⟨i, hi, rfl⟩ := List.mem_iff_getElem.1 hin
      exact hop _ _ (List.Forall₂.get hx1 (by rw [hx1.length_eq]; exact hi) hi) hmem
    · rw [ht] at hx2
      simp only [] at hx2
      cases htx : x.term with
      | invoke op n' e' =>
        rw [htx] at hx2
        simp only [bindTerm] at hx2
        cases hx2 with
        | invoke hr => exact hop _ _ hr hmem
        | keep hn => exact absurd rfl (hn _ _ _)
      | _ => rw [htx] at hx2; cases hx2
  · obtain ⟨x, -, hx2⟩ := hblk z hz
    simp only [] at hx2
    rcases ht with ⟨a, b', ht⟩ | ⟨t, ht⟩ <;> rw [ht] at hx2 <;> cases htx : x.term <;> rw [htx] at hx2 <;>
      simp only [bindTerm] at hx2 <;> generalize hgen : bindOperand _ _ = oo at hx2 <;> cases hx2 <;>
      exact hnot _ hgen

/-- **C96.** No specialization recurses into the generic function. -/
theorem C96_no_generic_recursion {env : Env} {k : Key} {g : Nat} {b : Body} {S : Fn}
    (h : specialize env k g b = some S) (hg : g ≠ k.orig) {op : Op} (hop : Contains S op)
    (hk : op.kind = .call) (hr : env.recorded op.data = false) (t : List Operand) :
    op.operands ≠ .fn k.orig :: t := by
  obtain ⟨D, hD, hm⟩ := Option.bind_eq_some_iff.1 h
  obtain ⟨op0, -, h0⟩ := contains_map hm hop
  intro he
  unfold redirectOp at h0
  split at h0
  · split at h0
    · cases h0
    · split at h0
      · cases h0
        cases he
        exact hg rfl
      · rename_i o t' hos hne
        cases h0
        rw [hos] at he
        cases he
        exact hne rfl
  · rename_i hn
    cases h0
    exact hn ⟨hk, hr⟩

/-- **C96.** No call is overlooked: a call that still records an instantiation and passes constant
dictionaries is one that the choice declined. -/
theorem C96_no_site_left {env : Env} {choose : Nat → Nat → List Nat → Option Nat} {F G : Fn}
    (h : callSites env choose F = some G) (hclear : ∀ x, env.recorded (env.clear x) = false)
    {op : Op} (hop : Contains G op) (hk : op.kind = .call) (hr : env.recorded op.data = true)
    {f : Nat} {ds : List Nat} {xs : List Operand} (hos : op.operands = .fn f :: (ds.map Operand.const ++ xs))
    (hds : ∀ c ∈ ds, env.isDict c = true) (hx : xs.length = env.visible op.data + 1) :
    choose f op.data ds = none := by
  obtain ⟨op0, -, h0⟩ := contains_map h hop
  obtain ⟨og, h1, h2⟩ := Option.map_eq_some_iff.1 h0
  cases og with
  | some g =>
    simp only at h2
    subst h2
    rw [hclear] at hr
    cases hr
  | none =>
    simp only at h2
    subst h2
    have hcs : constants env (ds.map Operand.const) = some ds := by
      clear hos h0 h1
      unfold constants
      induction ds with
      | nil => rfl
      | cons c t ih =>
        rw [List.map_cons, List.mapM_cons, ih fun x hx => hds x (List.mem_cons_of_mem _ hx)]
        simp [hds c List.mem_cons_self]
    unfold specializationFor at h1
    rw [if_neg (by simp [hk, hr]), hos] at h1
    simp only [List.length_cons, List.length_append, List.length_map, hx] at h1
    rw [if_neg (by omega), if_neg (by omega),
      show ds.length + (env.visible op0.data + 1) + 1 - (env.visible op0.data + 1) = ds.length + 1 from by
        omega] at h1
    simp only [List.take_succ_cons, List.drop_succ_cons, List.drop_zero] at h1
    rw [List.take_left' (by simp), hcs] at h1
    simpa using h1

/-! ## A program -/

namespace Example

/-- The last digit of the payload of a call is the number of visible arguments, and those from 10 on
record an instantiation. Constants from 100 on are dictionaries. -/
def env : Env := ⟨(· % 10), fun x => decide (10 ≤ x), (· % 10), fun c => decide (100 ≤ c)⟩

/-- Records its constant arguments; anything else fails. -/
def sem : Sem Nat Nat Nat (List Nat) Nat where
  op := fun k _ vs m => match k, vs with
    | .other 0, [.const c] => .done (.ok [] none { m with world := c :: m.world })
    | _, _ => .done (.fail [] 7 m)
  test := fun _ _ => some true
  combine := fun a _ => a
  limit := 10

/-- Function 0 calls function 1 with a dictionary. -/
def caller : Body := ⟨⟨0, [⟨[⟨.call, 11, [.fn 1, .const 100, .const 5, .const 6], none⟩], .ret⟩], 0⟩, []⟩

/-- Function 1 records its dictionary, and may call itself. -/
def generic : Body :=
  ⟨⟨3, [⟨[⟨.other 0, 0, [.param 0], none⟩], .condBr (.const 0) 2 1⟩,
    ⟨[⟨.call, 1, [.fn 1, .param 0, .param 1, .param 2], none⟩], .ret⟩, ⟨[], .ret⟩], 0⟩,
    [true, false, false]⟩

/-- Function 1 for dictionary 100. -/
def key : Key := ⟨1, id, [100]⟩

/-- The choice. -/
def choose (f data : Nat) (ds : List Nat) : Option Nat :=
  if f = 1 ∧ data = 11 ∧ ds = [100] then some 2 else none

/-- The program. -/
def before (f : Nat) : Option Body := if f = 0 then some caller else if f = 1 then some generic else none

/-- The specialization. -/
def made : Fn :=
  ⟨3, [⟨[⟨.other 0, 0, [.const 100], none⟩], .condBr (.const 0) 2 1⟩,
    ⟨[⟨.call, 1, [.fn 2, .const 100, .param 1, .param 2], none⟩], .ret⟩, ⟨[], .ret⟩], 0⟩

/-- The program with it. -/
def after (f : Nat) : Option Fn :=
  if f = 0 then some ⟨0, [⟨[⟨.call, 1, [.fn 2, .const 100, .const 5, .const 6], none⟩], .ret⟩], 0⟩
  else if f = 1 then some generic.fn
  else if f = 2 then some made else none

theorem ops_of {f : Nat} {b : Body} {op : Op} (hb : before f = some b) (ho : Contains b.fn op) :
    (f = 0 ∧ op = ⟨.call, 11, [.fn 1, .const 100, .const 5, .const 6], none⟩) ∨
    (f = 1 ∧ op = ⟨.other 0, 0, [.param 0], none⟩) ∨
    (f = 1 ∧ op = ⟨.call, 1, [.fn 1, .param 0, .param 1, .param 2], none⟩) := by
  unfold before at hb
  obtain ⟨blk, hblk, ho⟩ := ho
  split at hb
  · cases hb
    simp only [caller, List.mem_singleton] at hblk
    subst hblk
    simp at ho
    exact .inl ⟨by assumption, ho⟩
  · split at hb
    · cases hb
      simp only [generic, List.mem_cons, List.not_mem_nil, or_false] at hblk
      rcases hblk with rfl | rfl | rfl <;> simp at ho
      · exact .inr (.inl ⟨by assumption, ho⟩)
      · exact .inr (.inr ⟨by assumption, ho⟩)
    · cases hb

theorem formed : Formed sem env (· = 2) (fun g k => g = 2 ∧ k = key) before where
  fresh := by
    rintro f b h rfl
    cases h
  clean := by
    intro f b op hb ho o hm h he
    rcases ops_of hb ho with ⟨-, rfl⟩ | ⟨-, rfl⟩ | ⟨-, rfl⟩ <;> subst he <;> simp at hm <;> omega
  first := by
    rintro g k b ⟨-, rfl⟩ h
    cases h
    exact ⟨1, 2, rfl⟩
  types := by
    rintro g k b op ⟨-, rfl⟩ _ _ vs m
    rfl
  recursion := by
    rintro g k b op xs ⟨-, rfl⟩ hb ho hk hr hos p hp
    rcases ops_of hb ho with ⟨h, rfl⟩ | ⟨-, rfl⟩ | ⟨-, rfl⟩
    · cases h
    · cases hk
    · cases hos
      simp only [key, List.length_cons, List.length_nil] at hp
      have : p = 0 := by omega
      subst this
      rfl
  ops := by
    intro k data vs m _
    simp only [sem]
    split <;> simp [CleanProg]

theorem pass : Pass env choose (· = 2) (fun g k => g = 2 ∧ k = key) before after where
  spec_of := fun _ _ h => h.1
  chosen := by
    intro f data ds g h
    unfold choose at h
    split at h
    · rename_i hc
      cases h
      exact ⟨key, ⟨rfl, rfl⟩, hc.1.symm, hc.2.2.symm⟩
    · cases h
  outside := by
    intro f hf h
    unfold before at h
    unfold after
    split at h
    · cases h
    · split at h
      · cases h
      · rw [if_neg (by assumption), if_neg (by assumption), if_neg hf]
  plain := by
    intro f b _ h
    unfold before at h
    split at h
    · cases h
      rename_i h0
      subst h0
      exact ⟨_, rfl, .inr (by decide)⟩
    · split at h
      · cases h
        rename_i h0
        subst h0
        exact ⟨_, rfl, .inl rfl⟩
      · cases h
  spec := by
    rintro g k ⟨rfl, rfl⟩
    exact ⟨generic, made, made, rfl, by decide, .inl rfl, rfl⟩

/-- All that the theorems ask for holds here: the program with the specialization records the
dictionary as the program without it does. -/
example : Run sem after (.func 0 0 [] ⟨[9], []⟩) (.done ⟨[9], [100]⟩) := by
  refine (C96_program_runs_partial sem formed pass (by decide) 0 [] _ (by simp) _).1 ?_
  refine Run.func (F := caller.fn) (r := .done ⟨[9], [100]⟩) rfl rfl ?_
  refine Run.opOk (blk := _) (op := _) rfl rfl rfl (backs := []) (res := none) (m' := ⟨[9], [100]⟩) ?_
    (Run.ret (blk := ⟨[_], _⟩) rfl rfl rfl rfl)
  refine Run.direct (r := .done ⟨[9], [100]⟩) rfl rfl ?_
  refine Run.func (F := generic.fn) (r := .done ⟨[9], [100]⟩) rfl rfl ?_
  refine Run.opOk (blk := _) (op := _) rfl rfl rfl (.plain rfl rfl .progOk) ?_
  exact Run.condBr (blk := ⟨[_], _⟩) (t := true) rfl rfl rfl rfl (Run.ret (blk := ⟨[], _⟩) rfl rfl rfl rfl)

/-- The specialization does not read its dictionary, and it calls itself. -/
example : ¬ Reads made 0 ∧ ∀ t, ∀ op, Contains made op → op.kind = .call → env.recorded op.data = false →
    op.operands ≠ .fn 1 :: t :=
  ⟨C96_no_dictionary_read (k := key) (g := 2) (b := generic) (env := env) (by decide) 0 rfl,
    fun t _ ho hk hr => C96_no_generic_recursion (k := key) (g := 2) (b := generic) (env := env)
      (by decide) (by decide) ho hk hr t⟩

/-- A call with another dictionary stays as it is, because the choice declined it. -/
example : choose 1 11 [101] = none :=
  C96_no_site_left (env := env) (F := ⟨0, [⟨[⟨.call, 11, [.fn 1, .const 101, .const 5, .const 6], none⟩], .ret⟩], 0⟩)
    (G := ⟨0, [⟨[⟨.call, 11, [.fn 1, .const 101, .const 5, .const 6], none⟩], .ret⟩], 0⟩) (by decide)
    (fun x => by simp [env]; omega) (op := ⟨.call, 11, [.fn 1, .const 101, .const 5, .const 6], none⟩)
    ⟨_, List.mem_singleton.2 rfl, .inl (List.mem_singleton.2 rfl)⟩ rfl rfl (xs := [.const 5, .const 6])
    rfl (by decide) rfl

end Example

end Ferlium.Specialize
