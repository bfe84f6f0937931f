import Mathlib.Tactic
import Verif.Model.Borrow

namespace Ferlium.Borrow

/-! ### Positions -/

theorem prefix_total {p q r : List Nat} (h1 : p <+: r) (h2 : q <+: r) : p <+: q ∨ q <+: p :=
  List.prefix_or_prefix_of_prefix h1 h2

theorem get_set (v w : Val) (p q : List Nat) (h1 : ¬ p <+: q) (h2 : ¬ q <+: p) :
    (v.set p w).get q = v.get q := by
  induction p generalizing v q with
  | nil => exact absurd (List.nil_prefix) h1
  | cons i is ih =>
    cases q with
    | nil => exact absurd (List.nil_prefix) h2
    | cons j js =>
      cases v with
      | leaf n => rfl
      | node kids =>
        simp only [Val.set]
        cases hk : kids[i]? with
        | none => rfl
        | some k =>
          simp only [Val.get]
          by_cases hij : j = i
          · subst hij
            have hlt : j < kids.length := (List.getElem?_eq_some_iff.1 hk).1
            rw [List.getElem?_set_self hlt, hk]
            refine ih k js ?_ ?_
            · intro h; exact h1 (by simpa using h)
            · intro h; exact h2 (by simpa using h)
          · rw [List.getElem?_set_ne (Ne.symm hij)]

/-- Writing a place does not change what is read at a disjoint place. -/
theorem read_write {l m : Loc} (h : Disjoint l m) (s : Store) (w : Val) :
    read (write s l w) m = read s m := by
  unfold read write
  by_cases hr : m.root = l.root
  · rw [if_pos hr]
    rcases h with h | h
    · exact absurd hr.symm h
    · exact get_set _ _ _ _ h.1 h.2
  · rw [if_neg hr]

/-- `l` contains `m`. -/
def Inside (l m : Loc) : Prop := l.root = m.root ∧ l.steps <+: m.steps

theorem Inside.refl (l : Loc) : Inside l l := ⟨rfl, List.prefix_refl _⟩

theorem Inside.at (l : Loc) (steps : List Nat) : Inside l (l.at steps) := ⟨rfl, List.prefix_append _ _⟩

theorem Inside.trans {l m n : Loc} (h1 : Inside l m) (h2 : Inside m n) : Inside l n :=
  ⟨h1.1.trans h2.1, h1.2.trans h2.2⟩

theorem Disjoint.mono {l m l' m' : Loc} (h : Disjoint l m) (hl : Inside l l') (hm : Inside m m') :
    Disjoint l' m' := by
  rcases h with h | ⟨h1, h2⟩
  · left; rw [← hl.1, ← hm.1]; exact h
  · right
    constructor
    · intro h
      rcases prefix_total (hl.2.trans h) hm.2 with h' | h'
      · exact h1 h'
      · exact h2 h'
    · intro h
      rcases prefix_total (hm.2.trans h) hl.2 with h' | h'
      · exact h2 h'
      · exact h1 h'

theorem Disjoint.symm {l m : Loc} (h : Disjoint l m) : Disjoint m l := by
  rcases h with h | h
  · exact .inl (Ne.symm h)
  · exact .inr h.symm

theorem disjoint_at (l : Loc) {a b : List Nat} (h1 : ¬ a <+: b) (h2 : ¬ b <+: a) :
    Disjoint (l.at a) (l.at b) := by
  right
  simp only [Loc.at]
  constructor
  · intro h; exact h1 ((List.prefix_append_right_inj _).1 h)
  · intro h; exact h2 ((List.prefix_append_right_inj _).1 h)

/-! ### The places denoted by a path -/

/-- One part of a path leads from `l` to `m`. -/
def PartStep (W : World) : Part → Loc → Loc → Prop
  | .proj i, l, m => m = l.at [i]
  | .field n, l, m => m = l.at [W.fieldAt l n]
  | .index i, l, m => ∃ f rest s, m = l.at (W.address f l (.val (.leaf i) :: rest) s)
  | .dyn, l, m => ∃ steps, m = l.at steps

/-- The parts lead from `l` to `m`. -/
def Denotes (W : World) : Loc → List Part → Loc → Prop
  | l, [], m => m = l
  | l, p :: ps, m => ∃ k, PartStep W p l k ∧ Denotes W k ps m

theorem PartStep.inside {W : World} {p : Part} {l m : Loc} (h : PartStep W p l m) : Inside l m := by
  cases p with
  | proj i => rw [h]; exact Inside.at _ _
  | field n => rw [h]; exact Inside.at _ _
  | index i => obtain ⟨f, rest, s, rfl⟩ := h; exact Inside.at _ _
  | dyn => obtain ⟨steps, rfl⟩ := h; exact Inside.at _ _

theorem Denotes.inside {W : World} {ps : List Part} : ∀ {l m : Loc}, Denotes W l ps m → Inside l m := by
  induction ps with
  | nil => intro l m h; rw [show m = l from h]; exact Inside.refl _
  | cons p ps ih =>
    rintro l m ⟨k, hk, hm⟩
    exact hk.inside.trans (ih hm)

theorem Denotes.snoc {W : World} {p : Part} {ps : List Part} :
    ∀ {l m n : Loc}, Denotes W l ps m → PartStep W p m n → Denotes W l (ps ++ [p]) n := by
  induction ps with
  | nil => intro l m n h hp; rw [show m = l from h] at hp; exact ⟨n, hp, rfl⟩
  | cons q ps ih =>
    rintro l m n ⟨k, hk, hm⟩ hp
    exact ⟨k, hk, ih hm hp⟩

theorem not_prefix_single {i j : Nat} (h : i ≠ j) : ¬ [i] <+: [j] := by
  intro hp
  have := List.IsPrefix.eq_of_length hp rfl
  exact h (by simpa using this)

/-- Paths which do not overlap lead to disjoint places. -/
theorem parts_sound {W : World} (hW : W.Lawful) {ps qs : List Part}
    (h : partsOverlap ps qs = false) :
    ∀ {b l m : Loc}, Denotes W b ps l → Denotes W b qs m → Disjoint l m := by
  induction ps generalizing qs with
  | nil => simp [partsOverlap] at h
  | cons p ps ih =>
    cases qs with
    | nil => cases p <;> simp [partsOverlap] at h
    | cons q qs =>
      rintro b l m ⟨k, hk, hl⟩ ⟨k', hk', hm⟩
      cases p <;> cases q <;> simp only [partsOverlap, reduceCtorEq] at h
      case proj.proj i j =>
        by_cases hij : i = j
        · subst hij
          rw [if_neg (by simp)] at h
          rw [show k' = k from hk'.trans hk.symm] at hm
          exact ih h hl hm
        · rw [show k = _ from hk] at hl
          rw [show k' = _ from hk'] at hm
          exact (disjoint_at b (not_prefix_single hij) (not_prefix_single (Ne.symm hij))).mono
            hl.inside hm.inside
      case field.field i j =>
        by_cases hij : i = j
        · subst hij
          rw [if_neg (by simp)] at h
          rw [show k' = k from hk'.trans hk.symm] at hm
          exact ih h hl hm
        · rw [show k = _ from hk] at hl
          rw [show k' = _ from hk'] at hm
          have hne : W.fieldAt b i ≠ W.fieldAt b j := fun he => hij (hW.fields _ _ _ he)
          exact (disjoint_at b (not_prefix_single hne) (not_prefix_single (Ne.symm hne))).mono
            hl.inside hm.inside
      case index.index i j =>
        obtain ⟨f, rest, s, rfl⟩ := hk
        obtain ⟨g, rest', s', rfl⟩ := hk'
        by_cases hij : i = j
        · subst hij
          rw [if_neg (by simp)] at h
          rw [hW.same g f b i rest' rest s' s] at hm
          exact ih h hl hm
        · exact (disjoint_at b (hW.different f g b i j rest rest' s s' hij)
            (hW.different g f b j i rest' rest s' s (Ne.symm hij))).mono hl.inside hm.inside

/-! ### The path of an expression leads to the place it denotes -/

theorem path_push {late : Bool} {e : Expr} {part : Part} {p : Path}
    (h : (path late e).map (·.map (·.push part)) = some (some p)) :
    ∃ q, path late e = some (some q) ∧ p = q.push part := by
  cases hq : path late e with
  | none => rw [hq] at h; simp at h
  | some o =>
    cases o with
    | none => rw [hq] at h; simp at h
    | some q => rw [hq] at h; simp at h; exact ⟨q, rfl, h.symm⟩

theorem path_push_none {late : Bool} {e : Expr} {part : Part}
    (h : (path late e).map (·.map (·.push part)) = some none) : path late e = some none := by
  cases hq : path late e with
  | none => rw [hq] at h; simp at h
  | some o =>
    cases o with
    | none => rfl
    | some q => rw [hq] at h; simp at h

/-- What a path says about the places of an expression. -/
def Leads (W : World) (env : Env) : Option Path → Loc → Prop
  | none, _ => False
  | some p, l => Denotes W (env p.base) p.parts l

theorem evidence_val {W : World} {e : Expr} {env : Env} {s s' : Store} {r : Res}
    (he : e.isEvidence = true) (h : eval W e env s (some r) s') : ∃ v, r = .val v := by
  cases e <;> simp [Expr.isEvidence] at he
  obtain ⟨_, v, hv⟩ := h
  exact ⟨v, by simpa using hv⟩

theorem index_step {W : World} {late : Bool} {rest : Args} {part : Part} {env : Env}
    {s s' : Store} {rs : Results} {b : Loc} (f : Nat) (t : Store)
    (hp : indexOf late rest = some part) (h : evalSeq W rest env s (some rs) s') :
    PartStep W part b (b.at (W.address f b (rs.map (·.2.2)) t)) := by
  cases rest with
  | nil =>
    simp only [indexOf, Option.some.injEq] at hp
    subst hp
    exact ⟨_, rfl⟩
  | cons q e rest =>
    simp only [indexOf] at hp
    cases e with
    | int n =>
      simp only [indexPart, Option.some.injEq] at hp
      by_cases hn : 0 ≤ n
      · rw [if_pos hn] at hp
        subst hp
        obtain ⟨r0, s1, he, h⟩ := h
        obtain ⟨_, hr⟩ := he
        subst hr
        obtain ⟨rs', _, hrs⟩ := h
        cases rs' with
        | none => simp at hrs
        | some rs' =>
          simp only [Option.map_some, Option.some.injEq] at hrs
          subst hrs
          refine ⟨f, rs'.map (·.2.2), t, ?_⟩
          simp only [List.map_cons]
          rw [Int.toNat_of_nonneg hn]
      · rw [if_neg hn] at hp
        subst hp
        exact ⟨_, rfl⟩
    | immediate =>
      simp only [indexPart] at hp
      split at hp
      · cases hp
      · cases hp; exact ⟨_, rfl⟩
    | _ => simp only [indexPart, Option.some.injEq] at hp; subst hp; exact ⟨_, rfl⟩

mutual
theorem path_leads {W : World} {late : Bool} (e : Expr) {o : Option Path} {env : Env}
    {s s' : Store} {l : Loc} (hs : spine e = true) (hp : path late e = some o)
    (h : eval W e env s (some (.place l)) s') : Leads W env o l := by
  cases e with
  | load x =>
    simp only [path, Option.some.injEq] at hp
    subst hp
    obtain ⟨_, hr⟩ := h
    simp only [Option.some.injEq, Res.place.injEq] at hr
    exact hr
  | project e i =>
    simp only [path] at hp
    obtain ⟨r0, h, hr⟩ := h
    match r0, h, hr with
    | some (.place k), h, hr =>
      simp only [Option.some.injEq, Res.place.injEq] at hr
      subst hr
      cases o with
      | none =>
          exact (path_leads e (by simpa [spine] using hs) (path_push_none hp) h).elim
      | some p =>
        obtain ⟨q, hq, rfl⟩ := path_push hp
        have := path_leads e (by simpa [spine] using hs) hq h
        exact Denotes.snoc this (show PartStep W (.proj i) k (k.at [i]) from rfl)
    | some (.val _), h, ⟨_, hr⟩ => cases hr
    | none, h, hr => cases hr
  | field e n =>
    simp only [path] at hp
    cases late with
    | true => simp at hp
    | false =>
      simp only [Bool.false_eq_true, if_false] at hp
      obtain ⟨r0, h, hr⟩ := h
      match r0, h, hr with
      | some (.place k), h, hr =>
        simp only [Option.some.injEq, Res.place.injEq] at hr
        subst hr
        cases o with
        | none =>
          exact (path_leads e (by simpa [spine] using hs) (path_push_none hp) h).elim
        | some p =>
          obtain ⟨q, hq, rfl⟩ := path_push hp
          have := path_leads e (by simpa [spine] using hs) hq h
          exact Denotes.snoc this
            (show PartStep W (.field n) k (k.at [W.fieldAt k n]) from rfl)
      | some (.val _), h, ⟨_, hr⟩ => cases hr
      | none, h, hr => cases hr
  | apply f place pre args =>
    obtain ⟨rs0, s1, _, h⟩ := h
    match rs0, h with
    | none, ⟨hr, _⟩ => cases hr
    | some _, ⟨rs, s2, hseq, h⟩ =>
      match rs, hseq, h with
      | none, _, ⟨hr, _⟩ => cases hr
      | some rs, hseq, ⟨_, h⟩ =>
        rcases h with h | h
        · cases h
        · cases place with
          | false =>
            simp only [Bool.false_eq_true, if_false] at h
            obtain ⟨_, h⟩ := h; cases h
          | true =>
            simp only [if_true] at h
            simp only [path] at hp
            simp only [spine] at hs
            cases hres : W.resolve f s2 rs with
            | none =>
              rw [hres] at h
              obtain ⟨_, h⟩ := h; cases h
            | some l' =>
              rw [hres] at h
              simp only [Option.some.injEq, Res.place.injEq] at h
              subst h
              exact addressor_leads args f s2 hs hp hseq hres
  | block body =>
    simp only [path] at hp
    simp only [spine] at hs
    obtain ⟨rs, hseq, hr⟩ := h
    cases rs with
    | none => simp at hr
    | some rs =>
      simp only [Option.map_some, Option.some.injEq] at hr
      exact block_leads body hs hp hseq hr.symm
  | withPlace p x body => simp [spine] at hs
  | int n => obtain ⟨_, h⟩ := h; simp at h
  | immediate => obtain ⟨_, _, h⟩ := h; simp at h
  | evidence => obtain ⟨_, _, h⟩ := h; simp at h
  | method g => obtain ⟨_, _, h⟩ := h; simp at h
  | assign p v =>
    obtain ⟨s1, s2, _, h | ⟨_, _, _, _, _, _, h⟩⟩ := h
    · simp at h
    · rcases h with h | ⟨_, h⟩ <;> simp at h
  | store x v =>
    obtain ⟨r0, s1, _, h⟩ := h
    cases r0 with
    | none => simp at h
    | some r => obtain ⟨_, _, _, h⟩ := h; simp at h
  | take x => obtain ⟨_, _, _, h⟩ := h; simp at h
  | drop t =>
    obtain ⟨r0, s1, _, h⟩ := h
    match r0, h with
    | none, h => simp at h
    | some (.place _), ⟨_, _, _, h⟩ => rcases h with h | h <;> simp at h
    | some (.val _), ⟨_, h⟩ => rcases h with h | ⟨_, h⟩ <;> simp at h
  | other c => obtain ⟨_, h | ⟨_, h⟩⟩ := h <;> simp at h
theorem addressor_leads {W : World} {late : Bool} (args : Args) {o : Option Path} {env : Env}
    {s s' : Store} {l : Loc} {rs : Results} (f : Nat) (t : Store)
    (hs : spineBase args = true) (hp : addressorPath late args = some o)
    (h : evalSeq W args env s (some rs) s') (hr : W.resolve f t rs = some l) :
    Leads W env o l := by
  cases args with
  | nil => simp [addressorPath] at hp
  | cons q e rest =>
    simp only [addressorPath] at hp
    simp only [spineBase] at hs
    obtain ⟨r0, s1, he, h⟩ := h
    cases r0 with
    | none => simp at h
    | some r =>
      obtain ⟨rs', hrest, hrs⟩ := h
      cases rs' with
      | none => simp at hrs
      | some rs' =>
        simp only [Option.map_some, Option.some.injEq] at hrs
        subst hrs
        by_cases hev : e.isEvidence = true
        · rw [if_pos hev] at hp hs
          rw [hev] at hr
          exact addressor_leads rest f t hs hp hrest (by simpa [World.resolve] using hr)
        · rw [if_neg hev] at hp hs
          have hev' : e.isEvidence = false := by simpa using hev
          rw [hev'] at hr
          cases r with
          | val v => simp [World.resolve] at hr
          | place b =>
            simp only [World.resolve, Option.some.injEq] at hr
            subst hr
            cases hq : path late e with
            | none => rw [hq] at hp; simp at hp
            | some o' =>
              rw [hq] at hp
              have ih := path_leads e hs hq he
              cases o' with
              | none => exact ih.elim
              | some p =>
                simp only [Option.map_eq_some_iff] at hp
                obtain ⟨part, hpart, rfl⟩ := hp
                exact Denotes.snoc ih (index_step f t hpart hrest)
theorem block_leads {W : World} {late : Bool} (body : Args) {o : Option Path} {env : Env}
    {s s' : Store} {l : Loc} {rs : Results}
    (hs : spineTail body = true) (hp : blockPath late body = some o)
    (h : evalSeq W body env s (some rs) s') (hr : lastResult rs = .place l) :
    Leads W env o l := by
  cases body with
  | nil =>
    obtain ⟨_, h⟩ := h
    simp only [Option.some.injEq] at h
    subst h
    simp [lastResult] at hr
  | cons q e rest =>
    obtain ⟨r0, s1, he, h⟩ := h
    cases r0 with
    | none => simp at h
    | some r =>
      obtain ⟨rs', hrest, hrs⟩ := h
      cases rs' with
      | none => simp at hrs
      | some rs' =>
        simp only [Option.map_some, Option.some.injEq] at hrs
        subst hrs
        cases rest with
        | nil =>
          obtain ⟨_, hnil⟩ := hrest
          simp only [Option.some.injEq] at hnil
          subst hnil
          simp only [lastResult] at hr
          subst hr
          simp only [blockPath] at hp
          simp only [spineTail] at hs
          exact path_leads e hs hp he
        | cons q' e' rest' =>
          simp only [blockPath] at hp
          simp only [spineTail] at hs
          refine block_leads (.cons q' e' rest') hs hp hrest ?_
          cases rs' with
          | nil =>
            obtain ⟨r1, s2, _, h⟩ := hrest
            cases r1 with
            | none => simp at h
            | some r1 =>
              obtain ⟨rs', _, hrs⟩ := h
              cases rs' <;> simp at hrs
          | cons a rs' => simpa [lastResult] using hr
end

/-! ### Places behind a `WithPlace` -/

/-- The place lies inside a place the path leads to. -/
def Covers (W : World) (env : Env) (p : Path) (l : Loc) : Prop :=
  ∃ k, Denotes W (env p.base) p.parts k ∧ Inside k l

theorem evalSeq_cons {W : World} {q : Passing} {e : Expr} {rest : Args} {env : Env}
    {s s' : Store} {rs : Results} (h : evalSeq W (.cons q e rest) env s (some rs) s') :
    ∃ r s1 rs', eval W e env s (some r) s1 ∧ evalSeq W rest env s1 (some rs') s' ∧
      rs = (q, e.isEvidence, r) :: rs' := by
  obtain ⟨r0, s1, he, h⟩ := h
  cases r0 with
  | none => simp at h
  | some r =>
    obtain ⟨rs', hrest, hrs⟩ := h
    cases rs' with
    | none => simp at hrs
    | some rs' =>
      simp only [Option.map_some, Option.some.injEq] at hrs
      exact ⟨r, s1, rs', he, hrest, hrs⟩

theorem evalSeq_nil {W : World} {env : Env} {s s' : Store} {rs : Results}
    (h : evalSeq W .nil env s (some rs) s') : s' = s ∧ rs = [] := by
  obtain ⟨h1, h2⟩ := h
  exact ⟨h1, by simpa using h2⟩

/-- What a path says about the places of an expression which may begin with a `WithPlace`. -/
def Reaches (W : World) (env : Env) : Option Path → Loc → Prop
  | none, _ => False
  | some p, l => Covers W env p l

theorem Leads.reaches {W : World} {env : Env} {o : Option Path} {l : Loc} (h : Leads W env o l) :
    Reaches W env o l := by
  cases o with
  | none => exact h
  | some p => exact ⟨l, h, Inside.refl _⟩

theorem env_bind_self (env : Env) (x : Var) (l : Loc) : env.bind x l x = l := by simp [Env.bind]

mutual
theorem path_reaches {W : World} {late : Bool} (e : Expr) {o : Option Path} {env : Env}
    {s s' : Store} {l : Loc} (hs : shaped late e = true) (hp : path late e = some o)
    (h : eval W e env s (some (.place l)) s') : Reaches W env o l := by
  cases e with
  | withPlace p x body =>
    simp only [shaped, Bool.and_eq_true] at hs
    obtain ⟨⟨hsp, hsb⟩, hb⟩ := hs
    obtain ⟨r0, s1, hpl, h⟩ := h
    match r0, hpl, h with
    | none, _, ⟨h, _⟩ => cases h
    | some (.place k), hpl, h =>
      cases hq : path late body with
      | none => rw [hq] at hb; simp at hb
      | some o' =>
        cases o' with
        | none => rw [hq] at hb; simp at hb
        | some q =>
          rw [hq] at hb
          have hbase : q.base = x := by simpa using hb
          obtain ⟨k', hk', hin⟩ := path_reaches body hsb hq h
          rw [hbase, env_bind_self] at hk'
          have hlead := path_leads p hsp (show path late p = some o by simpa [path] using hp) hpl
          cases o with
          | none => exact hlead.elim
          | some p' => exact ⟨k, hlead, hk'.inside.trans hin⟩
  | block body =>
    simp only [path] at hp
    simp only [shaped] at hs
    obtain ⟨rs, hseq, hr⟩ := h
    cases rs with
    | none => simp at hr
    | some rs =>
      simp only [Option.map_some, Option.some.injEq] at hr
      exact block_reaches body hs hp hseq hr.symm
  | load x => exact (path_leads (.load x) hs hp h).reaches
  | project e i => exact (path_leads (.project e i) hs hp h).reaches
  | field e n => exact (path_leads (.field e n) hs hp h).reaches
  | apply f place pre args => exact (path_leads (.apply f place pre args) hs hp h).reaches
  | int n => exact (path_leads (.int n) hs hp h).reaches
  | immediate => exact (path_leads .immediate hs hp h).reaches
  | evidence => exact (path_leads .evidence hs hp h).reaches
  | method g => exact (path_leads (.method g) hs hp h).reaches
  | assign p v => exact (path_leads (.assign p v) hs hp h).reaches
  | store x v => exact (path_leads (.store x v) hs hp h).reaches
  | take x => exact (path_leads (.take x) hs hp h).reaches
  | drop t => exact (path_leads (.drop t) hs hp h).reaches
  | other c => exact (path_leads (.other c) hs hp h).reaches
theorem block_reaches {W : World} {late : Bool} (body : Args) {o : Option Path} {env : Env}
    {s s' : Store} {l : Loc} {rs : Results}
    (hs : shapedTail late body = true) (hp : blockPath late body = some o)
    (h : evalSeq W body env s (some rs) s') (hr : lastResult rs = .place l) :
    Reaches W env o l := by
  cases body with
  | nil =>
    obtain ⟨_, rfl⟩ := evalSeq_nil h
    simp [lastResult] at hr
  | cons q e rest =>
    obtain ⟨r, s1, rs', he, hrest, rfl⟩ := evalSeq_cons h
    cases rest with
    | nil =>
      obtain ⟨_, rfl⟩ := evalSeq_nil hrest
      simp only [lastResult] at hr
      subst hr
      simp only [blockPath] at hp
      simp only [shapedTail] at hs
      exact path_reaches e hs hp he
    | cons q' e' rest' =>
      simp only [blockPath] at hp
      simp only [shapedTail] at hs
      refine block_reaches (.cons q' e' rest') hs hp hrest ?_
      obtain ⟨r1, s2, rs'', _, _, rfl⟩ := evalSeq_cons hrest
      simpa [lastResult] using hr
end

/-! ### Expressions which denote no place -/

mutual
theorem placeRef_of_place {W : World} (e : Expr) {env : Env} {s s' : Store} {l : Loc}
    (h : eval W e env s (some (.place l)) s') : placeRef e = true := by
  cases e with
  | load x => rfl
  | project e i => rfl
  | field e i => rfl
  | apply f place pre args =>
    cases place with
    | true => rfl
    | false =>
      exfalso
      obtain ⟨rs0, s1, _, h⟩ := h
      match rs0, h with
      | none, ⟨hr, _⟩ => cases hr
      | some _, ⟨rs, s2, hseq, h⟩ =>
        match rs, hseq, h with
        | none, _, ⟨hr, _⟩ => cases hr
        | some rs, hseq, ⟨_, h⟩ =>
          rcases h with h | h
          · cases h
          · simp only [Bool.false_eq_true, if_false] at h
            obtain ⟨_, h⟩ := h; cases h
  | block body =>
    obtain ⟨rs, hseq, hr⟩ := h
    cases rs with
    | none => simp at hr
    | some rs =>
      simp only [Option.map_some, Option.some.injEq] at hr
      simp only [placeRef]
      exact tailRef_of_place body hseq hr.symm
  | withPlace p x body =>
    obtain ⟨r0, s1, hpl, h⟩ := h
    match r0, hpl, h with
    | none, _, ⟨h, _⟩ => cases h
    | some (.place k), hpl, h =>
      simp only [placeRef]
      exact placeRef_of_place body h
  | int n => obtain ⟨_, h⟩ := h; simp at h
  | immediate => obtain ⟨_, _, h⟩ := h; simp at h
  | evidence => obtain ⟨_, _, h⟩ := h; simp at h
  | method g => obtain ⟨_, _, h⟩ := h; simp at h
  | assign p v =>
    obtain ⟨s1, s2, _, h | ⟨_, _, _, _, _, _, h⟩⟩ := h
    · simp at h
    · rcases h with h | ⟨_, h⟩ <;> simp at h
  | store x v =>
    obtain ⟨r0, s1, _, h⟩ := h
    cases r0 with
    | none => simp at h
    | some r => obtain ⟨_, _, _, h⟩ := h; simp at h
  | take x => obtain ⟨_, _, _, h⟩ := h; simp at h
  | drop t =>
    obtain ⟨r0, s1, _, h⟩ := h
    match r0, h with
    | none, h => simp at h
    | some (.place _), ⟨_, _, _, h⟩ => rcases h with h | h <;> simp at h
    | some (.val _), ⟨_, h⟩ => rcases h with h | ⟨_, h⟩ <;> simp at h
  | other c => obtain ⟨_, h | ⟨_, h⟩⟩ := h <;> simp at h
theorem tailRef_of_place {W : World} (body : Args) {env : Env} {s s' : Store} {l : Loc}
    {rs : Results} (h : evalSeq W body env s (some rs) s') (hr : lastResult rs = .place l) :
    tailRef body = true := by
  cases body with
  | nil =>
    obtain ⟨_, rfl⟩ := evalSeq_nil h
    simp [lastResult] at hr
  | cons q e rest =>
    obtain ⟨r, s1, rs', he, hrest, rfl⟩ := evalSeq_cons h
    cases rest with
    | nil =>
      obtain ⟨_, rfl⟩ := evalSeq_nil hrest
      simp only [lastResult] at hr
      subst hr
      simp only [tailRef]
      exact placeRef_of_place e he
    | cons q' e' rest' =>
      simp only [tailRef]
      refine tailRef_of_place (l := l) (.cons q' e' rest') hrest ?_
      obtain ⟨r1, s2, rs'', _, _, rfl⟩ := evalSeq_cons hrest
      simpa [lastResult] using hr
end

/-! ### Evaluation does not write the observed place -/

/-- All paths which do not overlap the observed one lead to places disjoint from `l`. -/
def Guard (W : World) (env : Env) (observed : Path) (l : Loc) : Prop :=
  ∀ p m, overlap p observed = false → Covers W env p m → Disjoint m l

/-- With every variable owning its storage the overlap check is right. -/
theorem guard_own {W : World} (hW : W.Lawful) {p : Path} {l : Loc} (h : Covers W own p l) :
    Guard W own p l := by
  intro q m hq hm
  obtain ⟨k, hk, hin⟩ := h
  obtain ⟨k', hk', hin'⟩ := hm
  unfold overlap at hq
  by_cases hb : q.base = p.base
  · rw [if_neg (by simpa using hb)] at hq
    rw [hb] at hk'
    exact (parts_sound hW hq hk' hk).mono hin' hin
  · left
    rw [← hin'.1, ← hin.1, ← hk.inside.1, ← hk'.inside.1]
    exact hb

theorem Guard.bind {W : World} {env : Env} {observed q : Path} {l k : Loc} {x : Var}
    (h : Guard W env observed l) (hq : overlap q observed = false)
    (hk : Denotes W (env q.base) q.parts k) : Guard W (env.bind x k) observed l := by
  intro p m hp hm
  by_cases hb : p.base = x
  · obtain ⟨k', hk', hin⟩ := hm
    rw [hb, env_bind_self] at hk'
    exact (h q k hq ⟨k, hk, Inside.refl _⟩).mono (hk'.inside.trans hin) (Inside.refl _)
  · refine h p m hp ?_
    obtain ⟨k', hk', hin⟩ := hm
    refine ⟨k', ?_, hin⟩
    simpa [Env.bind, hb] using hk'

theorem orElse_false {a b : Option Bool} :
    orElse a b = some false ↔ a = some false ∧ b = some false := by
  unfold orElse
  split <;> simp_all

/-- The store keeps what is at `l`. -/
def Keeps (l : Loc) (s s' : Store) : Prop := read s' l = read s l

theorem keeps_star {l : Loc} {R : Store → Store → Prop} (hR : ∀ a b, R a b → Keeps l a b)
    {s s' : Store} (h : Relation.ReflTransGen R s s') : Keeps l s s' := by
  induction h with
  | refl => rfl
  | tail _ h ih => exact (hR _ _ h).trans ih

theorem hits_disjoint {W : World} {e : Expr} {observed : Path} {env : Env} {l k : Loc}
    {s s' : Store} (hg : Guard W env observed l) (hs : shaped false e = true)
    (hh : hits e observed = some false) (h : eval W e env s (some (.place k)) s') :
    Disjoint k l := by
  unfold hits at hh
  cases hp : path false e with
  | none => rw [hp] at hh; simp at hh
  | some o =>
    rw [hp] at hh
    have hr := path_reaches e hs hp h
    cases o with
    | none => exact hr.elim
    | some p =>
      simp only [Option.some.injEq] at hh
      exact hg p k hh hr

theorem args_disjoint {W : World} {observed : Path} {env : Env} {l k : Loc} (args : Args)
    {s s' : Store} {rs : Results} {ev : Bool} (hg : Guard W env observed l)
    (hs : shapedArgs args = true) (hh : argsHit observed args = some false)
    (h : evalSeq W args env s (some rs) s') (hk : (.mutableRef, ev, .place k) ∈ rs) :
    Disjoint k l := by
  induction args using Args.rec (motive_1 := fun _ => True) generalizing s rs with
  | load | project | field | apply | int | immediate | evidence | block | withPlace | assign
  | store | take | drop | method | other => trivial
  | nil =>
    obtain ⟨_, rfl⟩ := evalSeq_nil h
    simp at hk
  | cons q e rest _ ih =>
    obtain ⟨r, s1, rs', he, hrest, rfl⟩ := evalSeq_cons h
    cases q with
    | byLet =>
      simp only [argsHit] at hh
      simp only [shapedArgs] at hs
      rcases List.mem_cons.1 hk with hk | hk
      · simp at hk
      · exact ih hs hh hrest hk
    | mutableRef =>
      simp only [argsHit, orElse_false] at hh
      simp only [shapedArgs, Bool.and_eq_true] at hs
      rcases List.mem_cons.1 hk with hk | hk
      · simp only [Prod.mk.injEq, true_and] at hk
        obtain ⟨_, rfl⟩ := hk
        exact hits_disjoint hg hs.1 hh.1 he
      · exact ih hs.2 hh.2 hrest hk

theorem callee_keeps {l : Loc} {rs : Results} {s s' : Store}
    (hd : ∀ ev k, (.mutableRef, ev, .place k) ∈ rs → Disjoint k l)
    (h : Relation.ReflTransGen (CalleeWrite rs) s s') : Keeps l s s' := by
  refine keeps_star ?_ h
  rintro a b ⟨ev, k, steps, w, hk, rfl⟩
  exact read_write ((hd ev k hk).mono (Inside.at _ _) (Inside.refl _)) _ _

theorem own_overlap {W : World} {env : Env} {observed : Path} {l : Loc} {x : Var}
    (hg : Guard W env observed l) (h : overlap ⟨x, []⟩ observed = false) : Disjoint (env x) l :=
  hg ⟨x, []⟩ (env x) h ⟨env x, rfl, Inside.refl _⟩

theorem target_disjoint {W : World} {e : Expr} {observed : Path} {env : Env} {l k : Loc}
    {s s' : Store} (hg : Guard W env observed l) (hs : shaped false e = true)
    (hh : (if placeRef e = true then hits e observed else some false) = some false)
    (h : eval W e env s (some (.place k)) s') : Disjoint k l := by
  rw [if_pos (placeRef_of_place e h)] at hh
  exact hits_disjoint hg hs hh h

mutual
/-- `evaluation_may_write_path` answers `false` only if the observed place keeps its value. -/
theorem mayWrite_keeps {W : World} {observed : Path} {l : Loc} (e : Expr) {env : Env}
    {s s' : Store} {r : Option Res} (hg : Guard W env observed l)
    (hc : clear observed e = true) (hw : mayWrite observed e = some false)
    (h : eval W e env s r s') : Keeps l s s' := by
  cases e with
  | load x => rw [h.1]; rfl
  | project e i =>
    obtain ⟨r0, h, _⟩ := h
    exact mayWrite_keeps e hg (by simpa [clear] using hc) (by simpa [mayWrite] using hw) h
  | field e i =>
    obtain ⟨r0, h, _⟩ := h
    exact mayWrite_keeps e hg (by simpa [clear] using hc) (by simpa [mayWrite] using hw) h
  | apply f place pre args =>
    simp only [clear, Bool.and_eq_true] at hc
    simp only [mayWrite, orElse_false] at hw
    obtain ⟨rs0, s1, hpre, h⟩ := h
    have h1 := anyMayWrite_seq pre hg hc.1.2 hw.2.1 hpre
    match rs0, h with
    | none, ⟨_, hs⟩ => rw [hs]; exact h1
    | some _, ⟨rs, s2, hseq, h⟩ =>
      have h2 := anyMayWrite_seq args hg hc.2 hw.2.2 hseq
      match rs, hseq, h with
      | none, _, ⟨_, hs⟩ => rw [hs]; exact h2.trans h1
      | some rs, hseq, ⟨hcall, _⟩ =>
        have h3 := callee_keeps (l := l)
          (fun ev k hk => args_disjoint args hg hc.1.1 hw.1 hseq hk) hcall
        exact h3.trans (h2.trans h1)
  | int n => rw [h.1]; rfl
  | immediate => rw [h.1]; rfl
  | evidence => rw [h.1]; rfl
  | method g => rw [h.1]; rfl
  | block body =>
    obtain ⟨rs, hseq, _⟩ := h
    exact anyMayWrite_seq body hg (by simpa [clear] using hc) (by simpa [mayWrite] using hw) hseq
  | withPlace p x body =>
    simp only [clear, Bool.and_eq_true] at hc
    simp only [mayWrite, orElse_false] at hw
    obtain ⟨⟨⟨hsp, hq⟩, hcp⟩, hcb⟩ := hc
    obtain ⟨r0, s1, hpl, h⟩ := h
    have h1 := mayWrite_keeps p hg hcp hw.1 hpl
    match r0, hpl, h with
    | none, _, ⟨_, hs⟩ => rw [hs]; exact h1
    | some (.place k), hpl, h =>
      cases hp : path false p with
      | none => rw [hp] at hq; simp at hq
      | some o =>
        cases o with
        | none => rw [hp] at hq; simp at hq
        | some q =>
          rw [hp] at hq
          have hlead := path_leads p hsp hp hpl
          have hg' := hg.bind (x := x) (by simpa using hq) hlead
          exact (mayWrite_keeps body hg' hcb hw.2 h).trans h1
  | assign p v =>
    simp only [clear, Bool.and_eq_true] at hc
    simp only [mayWrite, orElse_false] at hw
    have hp : ∀ a b r, eval W p env a r b → Keeps l a b :=
      fun a b r h => mayWrite_keeps p hg hc.1.2 hw.2.1 h
    have hv : ∀ a b r, eval W v env a r b → Keeps l a b :=
      fun a b r h => mayWrite_keeps v hg hc.2 hw.2.2 h
    obtain ⟨s1, s2, hst, h⟩ := h
    have h1 : Keeps l s s1 := by
      refine keeps_star ?_ hst
      rintro a b (⟨r, h⟩ | ⟨r, h⟩)
      · exact hp a b r h
      · exact hv a b r h
    rcases h with ⟨_, hs⟩ | ⟨r0, s3, w, hpl, hst2, hwr, _⟩
    · rw [hs]; exact h1
    · have h2 := hp _ _ _ hpl
      have h3 : Keeps l s2 s3 := keeps_star (fun a b ⟨r, h⟩ => hv a b r h) hst2
      have h123 := h3.trans (h2.trans h1)
      cases r0 with
      | val _ => rw [show s' = s3 from hwr]; exact h123
      | place k =>
        rw [show s' = _ from hwr]
        exact (read_write (target_disjoint hg hc.1.1 hw.1 hpl) _ _).trans h123
  | store x v =>
    simp only [clear] at hc
    simp only [mayWrite, orElse_false, Option.some.injEq] at hw
    obtain ⟨r0, s1, hv, h⟩ := h
    have h1 := mayWrite_keeps v hg hc hw.2 hv
    cases r0 with
    | none => rw [h.2]; exact h1
    | some r0 =>
      obtain ⟨w, _, hs, _⟩ := h
      rw [hs]
      exact (read_write (own_overlap hg hw.1) _ _).trans h1
  | take x =>
    simp only [mayWrite, Option.some.injEq] at hw
    obtain ⟨w, _, hs, _⟩ := h
    rw [hs]
    exact read_write (own_overlap hg hw) _ _
  | drop t =>
    simp only [clear, Bool.and_eq_true] at hc
    simp only [mayWrite, orElse_false] at hw
    obtain ⟨r0, s1, ht, h⟩ := h
    have h1 := mayWrite_keeps t hg hc.2 hw.2 ht
    match r0, ht, h with
    | none, _, h => rw [h.2]; exact h1
    | some (.val _), _, h => rw [h.1]; exact h1
    | some (.place k), ht, ⟨w, _, hs, _⟩ =>
      rw [hs]
      exact (read_write (target_disjoint hg hc.1 hw.1 ht) _ _).trans h1
  | other c =>
    obtain ⟨h, _⟩ := h
    exact keeps_star (fun a b h => anyMayWrite_any c hg (by simpa [clear] using hc)
      (by simpa [mayWrite] using hw) h) h
theorem anyMayWrite_seq {W : World} {observed : Path} {l : Loc} (args : Args) {env : Env}
    {s s' : Store} {rs : Option Results} (hg : Guard W env observed l)
    (hc : clearAll observed args = true) (hw : anyMayWrite observed args = some false)
    (h : evalSeq W args env s rs s') : Keeps l s s' := by
  cases args with
  | nil => rw [h.1]; rfl
  | cons q e rest =>
    simp only [clearAll, Bool.and_eq_true] at hc
    simp only [anyMayWrite, orElse_false] at hw
    obtain ⟨r0, s1, he, h⟩ := h
    have h1 := mayWrite_keeps e hg hc.1 hw.1 he
    cases r0 with
    | none => rw [h.2]; exact h1
    | some r =>
      obtain ⟨rs', h, _⟩ := h
      exact (anyMayWrite_seq rest hg hc.2 hw.2 h).trans h1
theorem anyMayWrite_any {W : World} {observed : Path} {l : Loc} (args : Args) {env : Env}
    {s s' : Store} (hg : Guard W env observed l)
    (hc : clearAll observed args = true) (hw : anyMayWrite observed args = some false)
    (h : evalAny W args env s s') : Keeps l s s' := by
  cases args with
  | nil => exact h.elim
  | cons q e rest =>
    simp only [clearAll, Bool.and_eq_true] at hc
    simp only [anyMayWrite, orElse_false] at hw
    rcases h with ⟨r, h⟩ | h
    · exact mayWrite_keeps e hg hc.1 hw.1 h
    · exact anyMayWrite_any rest hg hc.2 hw.2 h
end

end Ferlium.Borrow
