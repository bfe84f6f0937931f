import Verif.Model.Serde
import Verif.Props.HashColl
import Mathlib.Data.List.Perm.Basic
import Mathlib.Data.List.Pairwise
import Verif.Proofs.DataText

/-! What it means for a value to have a type, for two values to be the same, and the round trip of serialization. -/
namespace Ferlium.Serde
open Ferlium.Text Ferlium.HColl Ferlium.HColl.Props

variable {F : Type}

/-- The names and types of fields or alternatives. -/
def NTys.toList : NTys → List (Text × Ty)
  | .nil => []
  | .cons n t rest => (n, t) :: rest.toList

section
variable (L : Lib F)

/-- The type `t` stands for the type `s`, which has no name. -/
def Is (t s : Ty) : Prop := t = s ∨ ∃ d, t = .named d ∧ L.head d = s

/-- No two names become equal when they are normalised. -/
def Apart (fs : NTys) : Prop := (fs.toList.map fun f => L.N.nfc f.1).Pairwise (· ≠ ·)

mutual

/-- The value has the type, and the names of fields and of alternatives stay different when they are normalised.  If `plain`, no
part of the value is of the type of serialized data. -/
def HasTy (plain : Prop) : Val F → Ty → Prop
  | .unit, t => Is L t .unit
  | .bool _, t => Is L t .bool
  | .int _, t => Is L t .int
  | .float _, t => Is L t .float
  | .string _, t => Is L t .string
  | .data _, t => Is L t .data ∧ ¬ plain
  | .array vs, t => ∃ e, Is L t (.array e) ∧ AllTy plain vs e
  | .tuple vs, t => (∃ ts, Is L t (.tuple ts) ∧ ItemsTy plain vs ts) ∨
      ∃ fs, Is L t (.record fs) ∧ Apart L fs ∧ FieldsTy plain vs fs
  | .variant tag p, t => ∃ alts pt, Is L t (.variant alts) ∧ Apart L alts ∧ (tag, pt) ∈ alts.toList ∧ HasTy plain p pt
  | .set vs, t => ∃ e, Is L t (.set e) ∧ AllTy plain vs e ∧ vs.toList.Pairwise fun a b => L.eq a b = false
  | .map es, t => ∃ k e, Is L t (.map k e) ∧ EntriesTy plain es k e ∧ es.toList.Pairwise fun a b => L.eq a.1 b.1 = false

/-- All values have the type. -/
def AllTy (plain : Prop) : Vals F → Ty → Prop
  | .nil, _ => True
  | .cons v rest, t => HasTy plain v t ∧ AllTy plain rest t

/-- The values have the types of the items of a tuple. -/
def ItemsTy (plain : Prop) : Vals F → Tys → Prop
  | .nil, ts => ts = .nil
  | .cons v rest, ts => ∃ t ts', ts = .cons t ts' ∧ HasTy plain v t ∧ ItemsTy plain rest ts'

/-- The values have the types of the fields of a record. -/
def FieldsTy (plain : Prop) : Vals F → NTys → Prop
  | .nil, fs => fs = .nil
  | .cons v rest, fs => ∃ n t fs', fs = .cons n t fs' ∧ HasTy plain v t ∧ FieldsTy plain rest fs'

/-- The keys and values of a map have the types. -/
def EntriesTy (plain : Prop) : Entries F → Ty → Ty → Prop
  | .nil, _, _ => True
  | .cons a b rest, k, e => HasTy plain a k ∧ HasTy plain b e ∧ EntriesTy plain rest k e

end

end

section
variable (feq : F → F → Prop)

mutual

/-- The values are the same: sets and maps may have another order, floating point numbers are related by `feq`. -/
def Same : Val F → Val F → Prop
  | .unit, w => w = .unit
  | .bool b, w => w = .bool b
  | .int i, w => w = .int i
  | .float f, w => ∃ g, w = .float g ∧ feq f g
  | .string s, w => w = .string s
  | .data d, w => w = .data d
  | .array vs, w => ∃ ws, w = .array ws ∧ SameAll vs ws
  | .tuple vs, w => ∃ ws, w = .tuple ws ∧ SameAll vs ws
  | .variant tag p, w => ∃ q, w = .variant tag q ∧ Same p q
  | .set vs, w => ∃ us ws, w = .set ws ∧ SameAll vs us ∧ us.toList.Perm ws.toList
  | .map es, w => ∃ us ws, w = .map ws ∧ SameEntries es us ∧ us.toList.Perm ws.toList

/-- The values are the same one by one. -/
def SameAll : Vals F → Vals F → Prop
  | .nil, ws => ws = .nil
  | .cons v rest, ws => ∃ w ws', ws = .cons w ws' ∧ Same v w ∧ SameAll rest ws'

/-- The entries are the same one by one. -/
def SameEntries : Entries F → Entries F → Prop
  | .nil, ws => ws = .nil
  | .cons a b rest, ws => ∃ x y ws', ws = .cons x y ws' ∧ Same a x ∧ Same b y ∧ SameEntries rest ws'

end

end

section
variable (num : F → Data F)

mutual

/-- The data which the JSON text of data stands for: without units, tuples, sets, maps and variants, and with `num f` for a floating
point number. -/
def jsonForm : Data F → Data F
  | .null => .null
  | .unit => .null
  | .bool b => .bool b
  | .int i => .int i
  | .float f => num f
  | .string s => .string s
  | .array a => .array (jsonItems a)
  | .tuple a => .array (jsonItems a)
  | .record o => .record (jsonFields o)
  | .set a => .array (jsonItems a)
  | .map m => .array (jsonPairs m)
  | .variant name p =>
    match p with
    | .unit => .record (.cons "type".toList (.string name) .nil)
    | p => .record (.cons "type".toList (.string name) (.cons "data".toList (jsonForm p) .nil))

/-- The items of a sequence. -/
def jsonItems : Items F → Items F
  | .nil => .nil
  | .cons d rest => .cons (jsonForm d) (jsonItems rest)

/-- The fields of a record. -/
def jsonFields : Fields F → Fields F
  | .nil => .nil
  | .cons n d rest => .cons n (jsonForm d) (jsonFields rest)

/-- The entries of a map: pairs. -/
def jsonPairs : Pairs F → Items F
  | .nil => .nil
  | .cons a b rest => .cons (.array (.cons (jsonForm a) (.cons (jsonForm b) .nil))) (jsonPairs rest)

end

end

section
variable (num : F → Data F)

mutual

/-- The data with `num f` for every floating point number. -/
def textForm : Data F → Data F
  | .float f => num f
  | .array a => .array (textItems a)
  | .tuple a => .tuple (textItems a)
  | .record o => .record (textFields o)
  | .set a => .set (textItems a)
  | .map m => .map (textPairs m)
  | .variant name p => .variant name (textForm p)
  | .null => .null
  | .unit => .unit
  | .bool b => .bool b
  | .int i => .int i
  | .string s => .string s

/-- The items of a sequence. -/
def textItems : Items F → Items F
  | .nil => .nil
  | .cons d rest => .cons (textForm d) (textItems rest)

/-- The fields of a record. -/
def textFields : Fields F → Fields F
  | .nil => .nil
  | .cons n d rest => .cons n (textForm d) (textFields rest)

/-- The entries of a map. -/
def textPairs : Pairs F → Pairs F
  | .nil => .nil
  | .cons a b rest => .cons (textForm a) (textForm b) (textPairs rest)

end

end

/-! ### Sets and maps -/

section
variable {K V : Type} {eq : K → K → Bool} {h : K → BitVec 64}

theorem set_build (LK : LawfulKey eq h) (ops : List K) (hp : ops.Pairwise fun a b => eq a b = false) :
    ∃ c, setInsertAll eq h Coll.new ops = some c ∧ ops.Perm ((toItems c).map Prod.fst) := by
  obtain ⟨c, hc, _, _, _, _, hpw, hsub, hsup⟩ := C10_set_refines_history LK ops
  refine ⟨c, hc, ?_⟩
  have nd1 : ops.Nodup := hp.imp fun {a b} hab e => by subst e; rw [LK.refl] at hab; cases hab
  have nd2 : ((toItems c).map Prod.fst).Nodup := hpw.imp fun {a b} hab e => by subst e; rw [LK.refl] at hab; cases hab
  rw [List.perm_ext_iff_of_nodup nd1 nd2]
  intro k
  refine ⟨fun hk => ?_, fun hk => hsub k hk⟩
  obtain ⟨x, hx, hxk⟩ := hsup k hk
  have hxo := hsub x hx
  by_cases e : x = k
  · exact e ▸ hx
  · have : eq x k = false := by
      have sym : Std.Symm fun a b => eq a b = false := ⟨fun a b hab => by rw [LK.comm]; exact hab⟩
      exact hp.forall hxo hk e
    rw [this] at hxk
    cases hxk

theorem map_build (LK : LawfulKey eq h) (ops : List (K × V)) (hp : ops.Pairwise fun a b => eq a.1 b.1 = false) :
    ∃ c, mapInsertAll eq h Coll.new ops = some c ∧ ops.Perm (toItems c) := by
  obtain ⟨c, hc, w, hget, hmem⟩ := map_state LK ops
  refine ⟨c, hc, ?_⟩
  have sym : Std.Symm fun a b : K × V => eq a.1 b.1 = false := ⟨fun a b hab => by rw [LK.comm]; exact hab⟩
  have nd1 : ops.Nodup := hp.imp fun {a b} hab e => by subst e; rw [LK.refl] at hab; cases hab
  have nd2 : (toItems c).Nodup := by
    have := toItems_pairwise w
    rw [List.pairwise_map] at this
    exact this.imp fun {a b} hab e => by subst e; rw [LK.refl] at hab; cases hab
  have hsub : ∀ x ∈ toItems c, x ∈ ops := by
    intro x hx
    rw [toItems_eq] at hx
    obtain ⟨e, he, rfl⟩ := List.mem_map.mp hx
    exact hmem e he
  rw [List.perm_ext_iff_of_nodup nd1 nd2]
  rintro ⟨k, v⟩
  refine ⟨fun hk => ?_, fun hk => hsub _ hk⟩
  have uniq : ∀ x ∈ ops, eq x.1 k = true → x = (k, v) := by
    intro x hx hxk
    by_contra e
    have : eq x.1 k = false := hp.forall hx hk e
    rw [this] at hxk
    cases hxk
  have hl : lastWrite eq ops k = some v := by
    rw [lastWrite]
    cases hf : ops.reverse.find? (fun p => eq p.1 k) with
    | none =>
      have := List.find?_eq_none.mp hf (k, v) (List.mem_reverse.mpr hk)
      simp [LK.refl] at this
    | some x =>
      have hx := List.mem_reverse.mp (List.mem_of_find?_eq_some hf)
      have hxk := List.find?_some hf
      rw [uniq x hx hxk]
      rfl
  obtain ⟨k', hk', hkk⟩ := (find_mem_iff LK w k v).mpr (by rw [hget, hl])
  rw [← uniq (k', v) (hsub _ hk') hkk]
  exact hk'

end

/-! ### The round trip -/

theorem Vals.toList_ofList : ∀ l : List (Val F), (Vals.ofList l).toList = l
  | [] => rfl
  | v :: l => by rw [Vals.ofList, Vals.toList, Vals.toList_ofList l]

theorem Entries.toList_ofList : ∀ l : List (Val F × Val F), (Entries.ofList l).toList = l
  | [] => rfl
  | (k, v) :: l => by rw [Entries.ofList, Entries.toList, Entries.toList_ofList l]

/-- The type is not a name. -/
def Ty.plain : Ty → Bool
  | .named _ => false
  | _ => true

variable {L : Lib F}

theorem Is.shape {t s : Ty} (h : Is L t s) (hs : s.plain = true) : shape L t = s := by
  rcases h with rfl | ⟨d, rfl, h⟩
  · cases t <;> first | rfl | cases hs
  · exact h

theorem payloadTy_mem {tag : Text} {pt : Ty} : ∀ {alts : NTys}, Apart L alts → (tag, pt) ∈ alts.toList → payloadTy tag alts = some pt
  | .nil, _, h => by cases h
  | .cons n t rest, ha, h => by
    rw [Apart, NTys.toList, List.map_cons, List.pairwise_cons] at ha
    rw [NTys.toList, List.mem_cons] at h
    rw [payloadTy]
    rcases h with h | h
    · cases h
      rw [if_pos rfl]
    · have hne : n ≠ tag := fun e => ha.1 (L.N.nfc tag) (List.mem_map.mpr ⟨_, h, rfl⟩) (by rw [e])
      rw [if_neg hne]
      exact payloadTy_mem ha.2 h

theorem readVariant_mem {tag : Text} {pt : Ty} (read : Ty → Option (Val F)) : ∀ {alts : NTys}, Apart L alts → (tag, pt) ∈ alts.toList →
    readVariant L (L.N.nfc tag) read alts = if pt = .unit then some (.variant tag .unit) else (read pt).map (.variant tag)
  | .nil, _, h => by cases h
  | .cons n t rest, ha, h => by
    rw [Apart, NTys.toList, List.map_cons, List.pairwise_cons] at ha
    rw [NTys.toList, List.mem_cons] at h
    rw [readVariant]
    rcases h with h | h
    · cases h
      rw [if_pos (show fresh L.N tag = L.N.nfc tag from rfl)]
    · have hne : L.N.nfc n ≠ L.N.nfc tag := ha.1 (L.N.nfc tag) (List.mem_map.mpr ⟨_, h, rfl⟩)
      rw [if_neg (by exact hne)]
      exact readVariant_mem read ha.2 h

variable {feq : F → F → Prop}

/-- Equality of keys is lawful and does not tell the same values apart. -/
structure Keys (L : Lib F) (feq : F → F → Prop) : Prop where
  lawful : LawfulKey L.eq L.hash
  same : ∀ a b a' b', Same feq a a' → Same feq b b' → L.eq a b = false → L.eq a' b' = false

theorem SameAll.mem : ∀ {vs us : Vals F}, SameAll feq vs us → ∀ u ∈ us.toList, ∃ v ∈ vs.toList, Same feq v u
  | .nil, us, h, u, hu => by rw [SameAll] at h; subst h; cases hu
  | .cons v rest, us, h, u, hu => by
    rw [SameAll] at h
    obtain ⟨w, ws, rfl, h1, h2⟩ := h
    rw [Vals.toList, List.mem_cons] at hu
    rcases hu with rfl | hu
    · exact ⟨v, List.mem_cons_self, h1⟩
    · obtain ⟨x, hx, h⟩ := SameAll.mem h2 u hu
      exact ⟨x, List.mem_cons_of_mem _ hx, h⟩

theorem SameAll.pairwise (K : Keys L feq) : ∀ {vs us : Vals F}, SameAll feq vs us →
    vs.toList.Pairwise (fun a b => L.eq a b = false) → us.toList.Pairwise fun a b => L.eq a b = false
  | .nil, us, h, _ => by rw [SameAll] at h; subst h; exact List.Pairwise.nil
  | .cons v rest, us, h, hp => by
    rw [SameAll] at h
    obtain ⟨w, ws, rfl, h1, h2⟩ := h
    rw [Vals.toList, List.pairwise_cons] at hp ⊢
    refine ⟨fun b hb => ?_, SameAll.pairwise K h2 hp.2⟩
    obtain ⟨x, hx, h⟩ := SameAll.mem h2 b hb
    exact K.same _ _ _ _ h1 h (hp.1 x hx)

theorem SameEntries.mem : ∀ {vs us : Entries F}, SameEntries feq vs us → ∀ u ∈ us.toList, ∃ v ∈ vs.toList, Same feq v.1 u.1
  | .nil, us, h, u, hu => by rw [SameEntries] at h; subst h; cases hu
  | .cons a b rest, us, h, u, hu => by
    rw [SameEntries] at h
    obtain ⟨x, y, ws, rfl, h1, _, h2⟩ := h
    rw [Entries.toList, List.mem_cons] at hu
    rcases hu with rfl | hu
    · exact ⟨(a, b), List.mem_cons_self, h1⟩
    · obtain ⟨x, hx, h⟩ := SameEntries.mem h2 u hu
      exact ⟨x, List.mem_cons_of_mem _ hx, h⟩

theorem SameEntries.pairwise (K : Keys L feq) : ∀ {vs us : Entries F}, SameEntries feq vs us →
    vs.toList.Pairwise (fun a b => L.eq a.1 b.1 = false) → us.toList.Pairwise fun a b => L.eq a.1 b.1 = false
  | .nil, us, h, _ => by rw [SameEntries] at h; subst h; exact List.Pairwise.nil
  | .cons a b rest, us, h, hp => by
    rw [SameEntries] at h
    obtain ⟨x, y, ws, rfl, h1, _, h2⟩ := h
    rw [Entries.toList, List.pairwise_cons] at hp ⊢
    refine ⟨fun b hb => ?_, SameEntries.pairwise K h2 hp.2⟩
    obtain ⟨x, hx, h⟩ := SameEntries.mem h2 b hb
    exact K.same _ _ _ _ h1 h (hp.1 x hx)

theorem buildSet_same (K : Keys L feq) {vs us : Vals F} (h : SameAll feq vs us)
    (hp : vs.toList.Pairwise fun a b => L.eq a b = false) : ∃ w, buildSet L us = some w ∧ Same feq (.set vs) w := by
  obtain ⟨c, hc, hperm⟩ := set_build K.lawful us.toList (h.pairwise K hp)
  refine ⟨.set (.ofList ((toItems c).map Prod.fst)), by rw [buildSet, hc]; rfl, ?_⟩
  rw [Same]
  exact ⟨us, _, rfl, h, by rw [Vals.toList_ofList]; exact hperm⟩

theorem buildMap_same (K : Keys L feq) {vs us : Entries F} (h : SameEntries feq vs us)
    (hp : vs.toList.Pairwise fun a b => L.eq a.1 b.1 = false) : ∃ w, buildMap L us = some w ∧ Same feq (.map vs) w := by
  obtain ⟨c, hc, hperm⟩ := map_build K.lawful us.toList (h.pairwise K hp)
  refine ⟨.map (.ofList (toItems c)), by rw [buildMap, hc]; rfl, ?_⟩
  rw [Same]
  exact ⟨us, _, rfl, h, by rw [Entries.toList_ofList]; exact hperm⟩

/-- How data is passed on. -/
inductive Mode
  | direct
  | text
  | json

variable (num : F → Data F) (j : Mode)

/-- The data itself, or what its text stands for. -/
def view (d : Data F) : Data F :=
  match j with
  | .direct => d
  | .text => textForm num d
  | .json => jsonForm num d

/-- The same for items. -/
def viewItems (d : Items F) : Items F :=
  match j with
  | .direct => d
  | .text => textItems num d
  | .json => jsonItems num d

/-- The same for fields. -/
def viewFields (d : Fields F) : Fields F :=
  match j with
  | .direct => d
  | .text => textFields num d
  | .json => jsonFields num d

theorem viewItems_nil : viewItems num j .nil = .nil := by cases j <;> rfl
theorem viewItems_cons (d : Data F) (a : Items F) : viewItems num j (.cons d a) = .cons (view num j d) (viewItems num j a) := by
  cases j <;> rfl
theorem viewFields_nil : viewFields num j .nil = .nil := by cases j <;> rfl
theorem viewFields_cons (n : Text) (d : Data F) (a : Fields F) :
    viewFields num j (.cons n d a) = .cons n (view num j d) (viewFields num j a) := by cases j <;> rfl

theorem getEntry_mem {α : Type} {name : Text} {x : α} : ∀ {l : List (Text × α)}, (l.map Prod.fst).Pairwise (· ≠ ·) → (name, x) ∈ l →
    getEntry name l = some x
  | [], _, h => by cases h
  | (n, y) :: l, hp, h => by
    rw [List.map_cons, List.pairwise_cons] at hp
    rw [getEntry]
    rcases List.mem_cons.mp h with h | h
    · cases h
      rw [if_pos rfl]
    · rw [if_neg (hp.1 name (List.mem_map.mpr ⟨_, h, rfl⟩))]
      exact getEntry_mem hp.2 h

theorem fieldReaders_names : ∀ {vs : Vals F} {fs : NTys} {o : Fields F}, serializeFields L vs fs = some o →
    (fieldReaders L (viewFields num j o)).map Prod.fst = fs.toList.map fun f => L.N.nfc f.1
  | .nil, .nil, o, h => by rw [serializeFields] at h; cases h; rw [viewFields_nil]; rfl
  | .cons v rest, .cons n t fs, o, h => by
    rw [serializeFields] at h
    simp only [Option.bind_eq_some_iff, Option.map_eq_some_iff] at h
    obtain ⟨d, _, o', ho, rfl⟩ := h
    rw [viewFields_cons, fieldReaders, List.map_cons, fieldReaders_names ho]
    rfl
  | .nil, .cons _ _ _, o, h => by simp [serializeFields] at h
  | .cons _ _, .nil, o, h => by simp [serializeFields] at h

/-- Reading a missing payload is reading `null`, but for data. -/
theorem read_null {t : Ty} {w : Val F} (h : deserialize L .null t = some w) (ht : shape L t ≠ .data) :
    readUnit L t = some w := by
  rw [deserialize] at h
  rw [readUnit]
  split at h
  · exact h
  · rename_i e; exact (ht e).elim
  · cases h

/-- A type of plain values is not that of data. -/
theorem HasTy.not_data {P : Prop} (hP : P) {v : Val F} {t : Ty} (h : HasTy L P v t) : shape L t ≠ .data := by
  intro e
  have key {s : Ty} (h : Is L t s) (hs : s.plain = true) (hd : s ≠ .data) : False := hd ((h.shape hs).symm.trans e)
  cases v <;> rw [HasTy] at h
  · exact key h rfl (by simp)
  · exact key h rfl (by simp)
  · exact key h rfl (by simp)
  · exact key h rfl (by simp)
  · exact key h rfl (by simp)
  · exact h.2 hP
  · obtain ⟨_, h, _⟩ := h; exact key h rfl (by simp)
  · rcases h with ⟨_, h, _⟩ | ⟨_, h, _⟩
    · exact key h rfl (by simp)
    · exact key h rfl (by simp)
  · obtain ⟨_, _, h, _⟩ := h; exact key h rfl (by simp)
  · obtain ⟨_, h, _⟩ := h; exact key h rfl (by simp)
  · obtain ⟨_, _, h, _⟩ := h; exact key h rfl (by simp)

variable {num j}

/-- The floating point number which is read at the type of floating point numbers. -/
def Reads (L : Lib F) (feq : F → F → Prop) (f : F) (d : Data F) : Prop :=
  (∃ g, d = .float g ∧ feq f g) ∨ ∃ i, d = .int i ∧ feq f (L.fromInt i)

theorem Reads.same {f : F} {d : Data F} (h : Reads L feq f d) {t : Ty} (ht : shape L t = .float) :
    ∃ w, deserialize L d t = some w ∧ Same feq (.float f) w := by
  rcases h with ⟨g, rfl, h⟩ | ⟨i, rfl, h⟩
  · exact ⟨.float g, by rw [deserialize, ht], by rw [Same]; exact ⟨g, rfl, h⟩⟩
  · exact ⟨.float (L.fromInt i), by rw [deserialize, ht], by rw [Same]; exact ⟨_, rfl, h⟩⟩

mutual

theorem round_val (hN : L.N.Lawful) (K : Keys L feq) (hf : ∀ f, Reads L feq f (view num j (.float f))) :
    ∀ (v : Val F) (t : Ty), HasTy L (j ≠ .direct) v t →
      ∃ d, serialize L v t = some d ∧ ∃ w, deserialize L (view num j d) t = some w ∧ Same feq v w
  | .unit, t, h => by
    rw [HasTy] at h
    have hs := h.shape rfl
    refine ⟨.unit, by rw [serialize, hs], .unit, ?_, by rw [Same]⟩
    cases j <;> simp only [view, textForm, jsonForm] <;> rw [deserialize, hs]
  | .bool b, t, h => by
    rw [HasTy] at h
    have hs := h.shape rfl
    refine ⟨.bool b, by rw [serialize, hs], .bool b, ?_, by rw [Same]⟩
    cases j <;> simp only [view, textForm, jsonForm] <;> rw [deserialize, hs]
  | .int b, t, h => by
    rw [HasTy] at h
    have hs := h.shape rfl
    refine ⟨.int b, by rw [serialize, hs], .int b, ?_, by rw [Same]⟩
    cases j <;> simp only [view, textForm, jsonForm] <;> rw [deserialize, hs]
  | .float f, t, h => by
    rw [HasTy] at h
    have hs := h.shape rfl
    exact ⟨.float f, by rw [serialize, hs], (hf f).same hs⟩
  | .string b, t, h => by
    rw [HasTy] at h
    have hs := h.shape rfl
    refine ⟨.string b, by rw [serialize, hs], .string b, ?_, by rw [Same]⟩
    cases j <;> simp only [view, textForm, jsonForm] <;> rw [deserialize, hs]
  | .data d, t, h => by
    rw [HasTy] at h
    have hs := h.1.shape rfl
    have hj : j = .direct := by simpa using h.2
    subst hj
    refine ⟨d, by rw [serialize, hs], .data d, ?_, by rw [Same]⟩
    simp only [view]
    cases d <;> rw [deserialize, hs]
  | .array vs, t, h => by
    rw [HasTy] at h
    obtain ⟨e, h, ha⟩ := h
    have hs := h.shape rfl
    obtain ⟨a, h1, ws, h2, h3⟩ := round_all hN K hf vs e ha
    refine ⟨.array a, by rw [serialize, hs]; simp only [h1, Option.map], .array ws, ?_, by rw [Same]; exact ⟨ws, rfl, h3⟩⟩
    have : view num j (.array a) = .array (viewItems num j a) := by cases j <;> rfl
    rw [this, deserialize, hs]
    simp only [h2, Option.map]
  | .tuple vs, t, h => by
    rw [HasTy] at h
    rcases h with ⟨ts, h, ha⟩ | ⟨fs, h, hap, ha⟩
    · have hs := h.shape rfl
      obtain ⟨a, h1, ws, h2, h3⟩ := round_items hN K hf vs ts ha
      refine ⟨.tuple a, by rw [serialize, hs]; simp only [h1, Option.map], .tuple ws, ?_, by rw [Same]; exact ⟨ws, rfl, h3⟩⟩
      have : view num j (.tuple a) = .array (viewItems num j a) ∨ view num j (.tuple a) = .tuple (viewItems num j a) := by
        cases j
        · exact .inr rfl
        · exact .inr rfl
        · exact .inl rfl
      rcases this with this | this <;> rw [this, deserialize, hs] <;> simp only [h2, Option.map]
    · have hs := h.shape rfl
      obtain ⟨o, h1, h2⟩ := round_fields hN K hf vs fs ha
      have hnames := fieldReaders_names (num := num) (j := j) h1
      obtain ⟨ws, h2, h3⟩ := h2 (fieldReaders L (viewFields num j o)) fun n r hr =>
        getEntry_mem (by rw [hnames]; exact hap) hr
      refine ⟨.record o, by rw [serialize, hs]; simp only [h1, Option.map], .tuple ws, ?_, by rw [Same]; exact ⟨ws, rfl, h3⟩⟩
      have : view num j (.record o) = .record (viewFields num j o) := by cases j <;> rfl
      rw [this, deserialize, hs]
      simp only [h2, Option.map]
  | .variant tag p, t, h => by
    rw [HasTy] at h
    obtain ⟨alts, pt, h, hap, hm, hp⟩ := h
    have hs := h.shape rfl
    obtain ⟨d, h1, w, h2, h3⟩ := round_val hN K hf p pt hp
    by_cases hu : pt = .unit
    · subst hu
      have hpu : p = .unit := by
        cases p <;> first | rfl | (exfalso; simp [HasTy, Is] at hp)
      subst hpu
      refine ⟨.variant (L.N.nfc tag) .unit, ?_, .variant tag .unit, ?_, by rw [Same]; exact ⟨_, rfl, by rw [Same]⟩⟩
      · rw [serialize, hs]
        simp only [payloadTy_mem hap hm]
        rfl
      · cases j
        · simp only [view]
          rw [deserialize, hs]
          simp only
          rw [readVariant_mem _ hap hm, if_pos rfl]
        · simp only [view, textForm]
          rw [deserialize, hs]
          simp only
          rw [readVariant_mem _ hap hm, if_pos rfl]
        · simp only [view, jsonForm]
          rw [deserialize, hs]
          simp only [stringFields, getEntry, fresh]
          rw [if_pos (hN.ascii _ (by decide)).symm]
          simp only
          rw [readVariant_mem _ hap hm, if_pos rfl]
    · refine ⟨.variant (L.N.nfc tag) d, ?_, .variant tag w, ?_, by rw [Same]; exact ⟨_, rfl, h3⟩⟩
      · rw [serialize, hs]
        simp only [payloadTy_mem hap hm]
        rw [if_neg hu, h1]
        rfl
      · cases j
        · simp only [view] at h2 ⊢
          rw [deserialize, hs]
          simp only
          rw [readVariant_mem _ hap hm, if_neg hu, h2]
          rfl
        · simp only [view, textForm] at h2 ⊢
          rw [deserialize, hs]
          simp only
          rw [readVariant_mem _ hap hm, if_neg hu, h2]
          rfl
        · by_cases hd : d = .unit
          · subst hd
            simp only [view, jsonForm] at h2 ⊢
            rw [deserialize, hs]
            simp only [stringFields, getEntry, fresh]
            rw [if_pos (hN.ascii _ (by decide)).symm]
            simp only
            rw [readVariant_mem _ hap hm, if_neg hu]
            simp only [fieldReaders, getEntry]
            rw [if_neg (by rw [hN.ascii "data".toList (by decide)]; decide)]
            simp only [Option.getD]
            rw [read_null h2]
            · rfl
            · exact hp.not_data (by simp)
          · have hv : view num .json (.variant (L.N.nfc tag) d) =
                .record (.cons "type".toList (.string (L.N.nfc tag)) (.cons "data".toList (view num .json d) .nil)) := by
              cases d <;> first | rfl | exact (hd rfl).elim
            rw [hv, deserialize, hs]
            simp only [stringFields, getEntry, fresh]
            rw [if_pos (hN.ascii _ (by decide)).symm]
            simp only
            rw [readVariant_mem _ hap hm, if_neg hu]
            simp only [fieldReaders, getEntry]
            rw [if_neg (by rw [hN.ascii "data".toList (by decide)]; decide), if_pos (hN.ascii _ (by decide)).symm]
            simp only [Option.getD]
            rw [h2]
            rfl
  | .set vs, t, h => by
    rw [HasTy] at h
    obtain ⟨e, h, ha, hp⟩ := h
    have hs := h.shape rfl
    obtain ⟨a, h1, ws, h2, h3⟩ := round_all hN K hf vs e ha
    obtain ⟨w, h4, h5⟩ := buildSet_same K h3 hp
    refine ⟨.set a, by rw [serialize, hs]; simp only [h1, Option.map], w, ?_, h5⟩
    have : view num j (.set a) = .array (viewItems num j a) ∨ view num j (.set a) = .set (viewItems num j a) := by
      cases j
      · exact .inr rfl
      · exact .inr rfl
      · exact .inl rfl
    rcases this with this | this <;> rw [this, deserialize, hs] <;> simp only [h2, Option.bind, h4]
  | .map es, t, h => by
    rw [HasTy] at h
    obtain ⟨k, e, h, ha, hp⟩ := h
    have hs := h.shape rfl
    obtain ⟨a, h1, ws, h2, h2t, h2', h3⟩ := round_entries hN K hf es k e ha
    obtain ⟨w, h4, h5⟩ := buildMap_same K h3 hp
    refine ⟨.map a, by rw [serialize, hs]; simp only [h1, Option.map], w, ?_, h5⟩
    cases j
    · simp only [view]
      rw [deserialize, hs]
      simp only [h2 rfl, Option.bind, h4]
    · simp only [view, textForm]
      rw [deserialize, hs]
      simp only [h2t rfl, Option.bind, h4]
    · simp only [view, jsonForm]
      rw [deserialize, hs]
      simp only [h2' rfl, Option.bind, h4]

theorem round_all (hN : L.N.Lawful) (K : Keys L feq) (hf : ∀ f, Reads L feq f (view num j (.float f))) :
    ∀ (vs : Vals F) (t : Ty), AllTy L (j ≠ .direct) vs t →
      ∃ a, serializeAll L vs t = some a ∧ ∃ ws, deserializeAll L (viewItems num j a) t = some ws ∧ SameAll feq vs ws
  | .nil, t, _ => ⟨.nil, by rw [serializeAll], .nil, by rw [viewItems_nil, deserializeAll], by rw [SameAll]⟩
  | .cons v rest, t, h => by
    rw [AllTy] at h
    obtain ⟨d, h1, w, h2, h3⟩ := round_val hN K hf v t h.1
    obtain ⟨a, g1, ws, g2, g3⟩ := round_all hN K hf rest t h.2
    refine ⟨.cons d a, by rw [serializeAll, h1, g1]; rfl, .cons w ws, ?_, by rw [SameAll]; exact ⟨_, _, rfl, h3, g3⟩⟩
    rw [viewItems_cons, deserializeAll, h2, g2]
    rfl

theorem round_items (hN : L.N.Lawful) (K : Keys L feq) (hf : ∀ f, Reads L feq f (view num j (.float f))) :
    ∀ (vs : Vals F) (ts : Tys), ItemsTy L (j ≠ .direct) vs ts →
      ∃ a, serializeItems L vs ts = some a ∧ ∃ ws, readItems (readers L (viewItems num j a)) ts = some ws ∧ SameAll feq vs ws
  | .nil, ts, h => by
    rw [ItemsTy] at h
    subst h
    exact ⟨.nil, by rw [serializeItems], .nil, by rw [readItems], by rw [SameAll]⟩
  | .cons v rest, ts, h => by
    rw [ItemsTy] at h
    obtain ⟨t, ts, rfl, hv, hr⟩ := h
    obtain ⟨d, h1, w, h2, h3⟩ := round_val hN K hf v t hv
    obtain ⟨a, g1, ws, g2, g3⟩ := round_items hN K hf rest ts hr
    refine ⟨.cons d a, by rw [serializeItems, h1, g1]; rfl, .cons w ws, ?_, by rw [SameAll]; exact ⟨_, _, rfl, h3, g3⟩⟩
    rw [viewItems_cons, readers, readItems, h2, g2]
    rfl

theorem round_fields (hN : L.N.Lawful) (K : Keys L feq) (hf : ∀ f, Reads L feq f (view num j (.float f))) :
    ∀ (vs : Vals F) (fs : NTys), FieldsTy L (j ≠ .direct) vs fs →
      ∃ o, serializeFields L vs fs = some o ∧
        ∀ rs, (∀ n r, (n, r) ∈ fieldReaders L (viewFields num j o) → getEntry n rs = some r) →
          ∃ ws, readFields L rs fs = some ws ∧ SameAll feq vs ws
  | .nil, ts, h => by
    rw [FieldsTy] at h
    subst h
    exact ⟨.nil, by rw [serializeFields], fun rs _ => ⟨.nil, by rw [readFields], by rw [SameAll]⟩⟩
  | .cons v rest, fs, h => by
    rw [FieldsTy] at h
    obtain ⟨n, t, fs, rfl, hv, hr⟩ := h
    obtain ⟨d, h1, w, h2, h3⟩ := round_val hN K hf v t hv
    obtain ⟨o, g1, g2⟩ := round_fields hN K hf rest fs hr
    refine ⟨.cons (L.N.nfc n) d o, by rw [serializeFields, h1, g1]; rfl, fun rs hrs => ?_⟩
    rw [viewFields_cons, fieldReaders] at hrs
    obtain ⟨ws, g2, g3⟩ := g2 rs fun n r hr => hrs n r (List.mem_cons_of_mem _ hr)
    refine ⟨.cons w ws, ?_, by rw [SameAll]; exact ⟨_, _, rfl, h3, g3⟩⟩
    have := hrs _ _ List.mem_cons_self
    rw [readFields, fresh, this]
    simp only [Option.bind]
    rw [h2, g2]
    rfl

theorem round_entries (hN : L.N.Lawful) (K : Keys L feq) (hf : ∀ f, Reads L feq f (view num j (.float f))) :
    ∀ (vs : Entries F) (k e : Ty), EntriesTy L (j ≠ .direct) vs k e →
      ∃ a, serializeEntries L vs k e = some a ∧ ∃ ws, (j = .direct → deserializeEntries L a k e = some ws) ∧
        (j = .text → deserializeEntries L (textPairs num a) k e = some ws) ∧
        (j = .json → deserializePairs L (jsonPairs num a) k e = some ws) ∧ SameEntries feq vs ws
  | .nil, k, e, _ => ⟨.nil, by rw [serializeEntries], .nil, fun _ => by rw [deserializeEntries],
      fun _ => by rw [textPairs, deserializeEntries], fun _ => by rw [jsonPairs, deserializePairs], by rw [SameEntries]⟩
  | .cons x y rest, k, e, h => by
    rw [EntriesTy] at h
    obtain ⟨d, h1, w, h2, h3⟩ := round_val hN K hf x k h.1
    obtain ⟨d', h1', w', h2', h3'⟩ := round_val hN K hf y e h.2.1
    obtain ⟨a, g1, ws, g2, g2t, g2', g3⟩ := round_entries hN K hf rest k e h.2.2
    refine ⟨.cons d d' a, by rw [serializeEntries, h1, h1', g1]; rfl, .cons w w' ws, fun hj => ?_, fun hj => ?_, fun hj => ?_, ?_⟩
    · subst hj
      simp only [view] at h2 h2'
      rw [deserializeEntries, h2, h2', g2 rfl]
      rfl
    · subst hj
      simp only [view] at h2 h2'
      rw [textPairs, deserializeEntries, h2, h2', g2t rfl]
      rfl
    · subst hj
      simp only [view] at h2 h2'
      rw [jsonPairs, deserializePairs, deserializePair, readers, readers, readPair, h2, g2' rfl]
      simp only [Option.bind]
      rw [h2']
      rfl
    · rw [SameEntries]
      exact ⟨_, _, _, rfl, h3, h3', g3⟩

end

end Ferlium.Serde
