import Verif.Proofs.SerdeText

/-!
Properties of serialization: a value which is written as data, as JSON or as data text, and read back at its type, is the same value
(C68, C69, C70).
-/
namespace Ferlium.Serde
open Ferlium.Text Ferlium.HColl Ferlium.HColl.Props

variable {F : Type} {L : Lib F} {H : Host F} {feq : F → F → Prop}

/-! ### Data -/

theorem hasTy_prop {p q : Prop} (e : p = q) {v : Val F} {t : Ty} (h : HasTy L p v t) : HasTy L q v t := e ▸ h

/-- A value serializes to data, and the data deserializes to the same value at the same type. -/
theorem C68_round_trip_partial (hN : L.N.Lawful) (K : Keys L Eq) {v : Val F} {t : Ty} (h : HasTy L False v t) :
    ∃ d, serialize L v t = some d ∧ ∃ w, deserialize L d t = some w ∧ Same Eq v w := by
  refine round_val (num := .float) (j := .direct) hN K ?_ v t (hasTy_prop (by simp) h)
  intro f
  exact .inl ⟨f, rfl, rfl⟩

mutual

/-- The value contains no set and no map. -/
def Ordered : Val F → Prop
  | .array vs => OrderedAll vs
  | .tuple vs => OrderedAll vs
  | .variant _ p => Ordered p
  | .set _ => False
  | .map _ => False
  | _ => True

/-- No value contains one. -/
def OrderedAll : Vals F → Prop
  | .nil => True
  | .cons v rest => Ordered v ∧ OrderedAll rest

end

mutual

theorem same_ordered : ∀ (v w : Val F), Ordered v → Same Eq v w → v = w
  | .unit, w, _, h => by rw [Same] at h; exact h.symm
  | .bool _, w, _, h => by rw [Same] at h; exact h.symm
  | .int _, w, _, h => by rw [Same] at h; exact h.symm
  | .float _, w, _, h => by rw [Same] at h; obtain ⟨g, rfl, rfl⟩ := h; rfl
  | .string _, w, _, h => by rw [Same] at h; exact h.symm
  | .data _, w, _, h => by rw [Same] at h; exact h.symm
  | .array vs, w, o, h => by
    rw [Same] at h; rw [Ordered] at o; obtain ⟨ws, rfl, h⟩ := h; rw [sameAll_ordered vs ws o h]
  | .tuple vs, w, o, h => by
    rw [Same] at h; rw [Ordered] at o; obtain ⟨ws, rfl, h⟩ := h; rw [sameAll_ordered vs ws o h]
  | .variant _ p, w, o, h => by
    rw [Same] at h; rw [Ordered] at o; obtain ⟨q, rfl, h⟩ := h; rw [same_ordered p q o h]
  | .set _, _, o, _ => by rw [Ordered] at o; exact o.elim
  | .map _, _, o, _ => by rw [Ordered] at o; exact o.elim

theorem sameAll_ordered : ∀ (v w : Vals F), OrderedAll v → SameAll Eq v w → v = w
  | .nil, w, _, h => by rw [SameAll] at h; exact h.symm
  | .cons v rest, w, o, h => by
    rw [SameAll] at h; rw [OrderedAll] at o; obtain ⟨x, xs, rfl, h1, h2⟩ := h
    rw [same_ordered v x o.1 h1, sameAll_ordered rest xs o.2 h2]

end

/-- Without sets and maps exactly the same value. -/
theorem C68_exact_partial (hN : L.N.Lawful) (K : Keys L Eq) {v : Val F} {t : Ty} (h : HasTy L False v t) (o : Ordered v) :
    (serialize L v t).bind (fun d => deserialize L d t) = some v := by
  obtain ⟨d, hd, w, hw, hs⟩ := C68_round_trip_partial hN K h
  rw [hd, Option.bind_some, hw, ← same_ordered v w o hs]

/-- Values which serialize to the same data are the same, without sets and maps. -/
theorem C68_distinct_partial (hN : L.N.Lawful) (K : Keys L Eq) {v w : Val F} {t : Ty} (hv : HasTy L False v t) (hw : HasTy L False w t)
    (ov : Ordered v) (ow : Ordered w) (h : serialize L v t = serialize L w t) : v = w := by
  have h1 := C68_exact_partial hN K hv ov
  rw [h, C68_exact_partial hN K hw ow] at h1
  exact (Option.some.inj h1).symm

/-- Two fields, or two alternatives, whose names are different but equal when normalised. -/
theorem C68_names_violated {a b : Text} (hab : a ≠ b) (h : L.N.nfc a = L.N.nfc b) :
    ((serialize L (.tuple (.cons (.int 1) (.cons (.int 2) .nil))) (.record (.cons a .int (.cons b .int .nil)))).bind fun d =>
      deserialize L d (.record (.cons a .int (.cons b .int .nil)))) = some (.tuple (.cons (.int 1) (.cons (.int 1) .nil))) ∧
    ((serialize L (.variant b .unit) (.variant (.cons a .unit (.cons b .unit .nil)))).bind fun d =>
      deserialize L d (.variant (.cons a .unit (.cons b .unit .nil)))) = some (.variant a .unit) ∧
    ((serialize L (.variant b (.int 1)) (.variant (.cons a .string (.cons b .int .nil)))).bind fun d =>
      deserialize L d (.variant (.cons a .string (.cons b .int .nil)))) = none := by
  refine ⟨?_, ?_, ?_⟩
  · simp [serialize, serializeFields, shape, deserialize, readFields, fieldReaders, getEntry, fresh, h]
  · simp [serialize, shape, payloadTy, hab, deserialize, readVariant, fresh, h]
  · simp [serialize, shape, payloadTy, hab, deserialize, readVariant, fresh, h]

/-- There are such names, of letters which identifiers can contain. -/
theorem C68_names_exist : ∃ a b : Text, a ≠ b ∧ hangul.nfc a = hangul.nfc b :=
  ⟨['ᄀ', 'ᅡ'], ['가'], by decide, by simp [hangul, compose, hangulPair]⟩

/-! ### JSON -/

/-- The JSON text of data is JSON, and parsing it gives the data without what JSON cannot express. -/
theorem C69_json_partial (LH : H.Lawful) (hf : ∀ f, Numeral (H.showFloat f)) {d : Data F} (h : JsonOk H d) :
    parseJson H (toJson H d) = some (jsonForm (jsonNum H) d) := by
  obtain ⟨h1, h2⟩ := tree_ok LH hf d h
  rw [toJson_text LH hf d h, parseJson_text _ h1, h2]

/-- A value which is encoded as JSON and decoded at its type is the same, if it contains no serialized data. -/
theorem C69_round_trip_partial (LH : H.Lawful) (hN : L.N = H.N) (K : Keys L feq) (hf : ∀ f, Numeral (H.showFloat f))
    (hr : ∀ f, feq f f) (hi : ∀ f i, readInt (H.showFloat f) = some i → feq f (L.fromInt i)) {v : Val F} {t : Ty}
    (h : HasTy L True v t) (ok : ∀ d, serialize L v t = some d → JsonOk H d) :
    ∃ s, jsonEncode L H v t = some s ∧ ∃ w, jsonDecode L H s t = some w ∧ Same feq v w := by
  obtain ⟨d, hd, w, hw, hs⟩ := round_val (num := jsonNum H) (j := .json) (hN ▸ LH.unicode) K (by
    intro f
    change Reads L feq f (jsonForm (jsonNum H) (.float f))
    rw [jsonForm, jsonNum]
    cases hc : readInt (H.showFloat f) with
    | some i => exact .inr ⟨i, rfl, hi f i hc⟩
    | none => exact .inl ⟨f, rfl, hr f⟩) v t (hasTy_prop (by simp) h)
  refine ⟨toJson H d, by rw [jsonEncode, hd]; rfl, w, ?_, hs⟩
  rw [jsonDecode, C69_json_partial LH hf (ok d hd)]
  exact hw

/-- Serialized data itself comes back as what JSON can express of it. -/
theorem C69_data_partial (LH : H.Lawful) (hf : ∀ f, Numeral (H.showFloat f)) {d : Data F} (h : JsonOk H d) :
    (jsonEncode L H (.data d) .data).bind (fun s => jsonDecode L H s .data) = some (.data (jsonForm (jsonNum H) d)) := by
  rw [jsonEncode, serialize, show shape L .data = .data from rfl, Option.map_some, Option.bind_some, jsonDecode,
    C69_json_partial LH hf h, Option.bind_some]
  cases jsonForm (jsonNum H) d <;> simp [deserialize, shape]

/-- Data which is a tuple comes back as an array, and a unit as null. -/
theorem C69_data_violated (LH : H.Lawful) (hf : ∀ f, Numeral (H.showFloat f)) :
    (jsonEncode L H (.data (.tuple (.cons .unit .nil))) .data).bind (fun s => jsonDecode L H s .data) =
      some (.data (.array (.cons .null .nil))) := by
  rw [C69_data_partial LH hf (by simp [JsonOk, ItemsJsonOk])]
  simp [jsonForm, jsonItems]

/-- A string with a control character before a combining mark is encoded as a text which is not JSON. -/
theorem C69_strings_violated (LH : H.Lawful) (ht : H.N.Normal ['\u0303']) (h : H.N.nfc ['n', '\u0303'] = ['ñ']) :
    ∃ s, H.N.Normal s ∧ ∃ t, jsonEncode L H (.string s) .string = some t ∧ jsonDecode L H t .string = none := by
  refine ⟨['\n', '\u0303'], tilde_normal LH.unicode ht, ['"', '\\', 'ñ', '"'], ?_, ?_⟩
  · have e : inspectJson H.N ['\n', '\u0303'] = ['"', '\\', 'ñ', '"'] :=
      nfc_tilde LH.unicode h ['"', '\\'] ['"'] (by decide) (by decide)
    rw [jsonEncode, serialize, show shape L .string = .string from rfl, Option.map_some, toJson, e]
  · have e : jsonString ['\\', 'ñ', '"'] = none := by
      rw [jsonString, if_neg (by decide), if_pos rfl]
      split
      · rename_i hc; cases hc
      · rfl
    rw [jsonDecode, parseJson, List.length_cons, jsonValue]
    simp [jsonSkip, jsonWhite, e]

/-! ### Data text -/

/-- A value which is encoded as data text and decoded at its type is the same, if the data is printable when integral numbers are
taken for integers, and it contains no serialized data. -/
theorem C70_round_trip_partial (LH : H.Lawful) (hN : L.N = H.N) (K : Keys L feq)
    (hr : ∀ f, feq f f) (hi : ∀ f i, readInt (H.showFloat f) = some i → feq f (L.fromInt i)) {v : Val F} {t : Ty}
    (h : HasTy L True v t) (ok : ∀ d, serialize L v t = some d → Printable H (textForm (textNum H) d)) :
    ∃ s, textEncode L H v t = some s ∧ ∃ w, textDecode L H s t = some w ∧ Same feq v w := by
  obtain ⟨d, hd, w, hw, hs⟩ := round_val (num := textNum H) (j := .text) (hN ▸ LH.unicode) K (by
    intro f
    change Reads L feq f (textForm (textNum H) (.float f))
    rw [textForm]
    rcases textNum_shape H f with ⟨i, e, hc⟩ | e
    · exact .inr ⟨i, e, hi f i hc⟩
    · exact .inl ⟨f, e, hr f⟩) v t (hasTy_prop (by simp) h)
  obtain ⟨s, hp, hq⟩ := C19_round_trip_partial LH (ok d hd)
  rw [print_textForm] at hp
  refine ⟨s, by rw [textEncode, hd, Option.bind_some, hp], w, ?_, hs⟩
  rw [textDecode, hq]
  exact hw

/-- The same for values which contain serialized data, if the data is printable as it is. -/
theorem C70_data_round_trip_partial (LH : H.Lawful) (hN : L.N = H.N) (K : Keys L Eq) {v : Val F} {t : Ty}
    (h : HasTy L False v t) (ok : ∀ d, serialize L v t = some d → Printable H d) :
    ∃ s, textEncode L H v t = some s ∧ ∃ w, textDecode L H s t = some w ∧ Same Eq v w := by
  obtain ⟨d, hd, w, hw, hs⟩ := C68_round_trip_partial (hN ▸ LH.unicode) K h
  obtain ⟨s, hp, hq⟩ := C19_round_trip_partial LH (ok d hd)
  refine ⟨s, by rw [textEncode, hd, Option.bind_some, hp], w, ?_, hs⟩
  rw [textDecode, hq]
  exact hw

/-- An alternative whose only item is a record, such as `Some(p)` with a record `p`, is encoded, but the text is not decoded. -/
theorem C70_record_payload_violated (LH : H.Lawful) (hN : L.N = H.N) {name : Text} (hn : Word name) (hk : name ∉ keywords) {alts fs : NTys}
    (ha : Apart L alts) (hm : (name, .tuple (.cons (.record fs) .nil)) ∈ alts.toList) {vs : Vals F} {o : Fields F}
    (ho : serializeFields L vs fs = some o) (hp : Printable H (.record o)) :
    ∃ s, textEncode L H (.variant name (.tuple (.cons (.tuple vs) .nil))) (.variant alts) = some s ∧
      textDecode L H s (.variant alts) = none := by
  have hnf : L.N.nfc name = name := hN ▸ hn.normal LH
  obtain ⟨s, h1, h2⟩ := C19_record_payload_violated LH hn hk hp
  refine ⟨s, ?_, ?_⟩
  · rw [← h1, textEncode, serialize]
    simp only [shape, payloadTy_mem ha hm, serialize, serializeItems, ho, fresh, hnf]
    simp
  · rw [textDecode, h2, Option.bind_some, deserialize]
    simp only [shape]
    have := readVariant_mem (deserialize L (.record o)) ha hm
    rw [hnf] at this
    rw [this, if_neg (by simp)]
    simp [deserialize, shape]

/-- A floating point number without a point in its text, which is too large for an integer, is encoded, but the text is not decoded. -/
theorem C70_large_floats_violated (LH : H.Lawful) {f : F} (h : '.' ∉ H.showFloat f) (hi : readInt (H.showFloat f) = none) :
    ∃ s, textEncode L H (.float f) .float = some s ∧ textDecode L H s .float = none := by
  obtain ⟨t, h1, h2, _⟩ := C19_floats_violated LH f h
  have e : t = H.showFloat f := by
    rw [print, fresh, showFloat_normal LH] at h1
    exact (Option.some.inj h1).symm
  refine ⟨t, by rw [textEncode, serialize, show shape L .float = .float from rfl, Option.bind_some, h1], ?_⟩
  rw [textDecode, h2, e, hi]
  rfl

/-! ### A library and a value -/

mutual

/-- The value without the contents of sets and maps. -/
def norm : Val F → Val F
  | .array vs => .array (normAll vs)
  | .tuple vs => .tuple (normAll vs)
  | .variant tag p => .variant tag (norm p)
  | .set _ => .set .nil
  | .map _ => .map .nil
  | v => v

/-- The same for all values. -/
def normAll : Vals F → Vals F
  | .nil => .nil
  | .cons v rest => .cons (norm v) (normAll rest)

end

mutual

theorem norm_same : ∀ v w : Val F, Same Eq v w → norm v = norm w
  | .unit, w, h => by rw [Same] at h; rw [h]
  | .bool _, w, h => by rw [Same] at h; rw [h]
  | .int _, w, h => by rw [Same] at h; rw [h]
  | .float _, w, h => by rw [Same] at h; obtain ⟨g, rfl, rfl⟩ := h; rfl
  | .string _, w, h => by rw [Same] at h; rw [h]
  | .data _, w, h => by rw [Same] at h; rw [h]
  | .array vs, w, h => by rw [Same] at h; obtain ⟨ws, rfl, h⟩ := h; rw [norm, norm, normAll_same vs ws h]
  | .tuple vs, w, h => by rw [Same] at h; obtain ⟨ws, rfl, h⟩ := h; rw [norm, norm, normAll_same vs ws h]
  | .variant _ p, w, h => by rw [Same] at h; obtain ⟨q, rfl, h⟩ := h; rw [norm, norm, norm_same p q h]
  | .set _, _, h => by rw [Same] at h; obtain ⟨_, _, rfl, _⟩ := h; rfl
  | .map _, _, h => by rw [Same] at h; obtain ⟨_, _, rfl, _⟩ := h; rfl

theorem normAll_same : ∀ v w : Vals F, SameAll Eq v w → normAll v = normAll w
  | .nil, w, h => by rw [SameAll] at h; rw [h]
  | .cons v rest, w, h => by
    rw [SameAll] at h; obtain ⟨x, xs, rfl, h1, h2⟩ := h
    rw [normAll, normAll, norm_same v x h1, normAll_same rest xs h2]

end

/-- Multiples of one half, and one recursive named type: a list of integers and names. -/
def sampleLib : Lib Nat where
  N := hangul
  round n := n / 2
  fromInt i := 2 * i.toNat
  eq a b := norm a == norm b
  hash _ := 0
  head _ := .variant (.cons "Nil".toList .unit (.cons "Cons".toList (.tuple (.cons .float (.cons (.named 0) .nil))) .nil))

theorem sampleLib_keys : Keys sampleLib Eq where
  lawful := {
    refl a := by simp [sampleLib]
    symm a b h := by simp only [sampleLib, beq_iff_eq] at h ⊢; exact h.symm
    trans a b c h k := by simp only [sampleLib, beq_iff_eq] at h k ⊢; exact h.trans k
    hash _ _ _ := rfl }
  same a b a' b' ha hb h := by
    simp only [sampleLib, beq_eq_false_iff_ne] at h ⊢
    rw [← norm_same a a' ha, ← norm_same b b' hb]
    exact h

/-- A record of a list, a set and a map. -/
def sampleTy : Ty :=
  .record (.cons "a".toList (.named 0) (.cons "b".toList (.set .string) (.cons "c".toList (.map .int .bool) .nil)))

/-- A value of the type. -/
def sampleVal : Val Nat :=
  .tuple (.cons (.variant "Cons".toList (.tuple (.cons (.float 4) (.cons (.variant "Nil".toList .unit) .nil))))
    (.cons (.set (.cons (.string "x".toList) (.cons (.string "y".toList) .nil)))
      (.cons (.map (.cons (.int 7) (.bool true) (.cons (.int 8) (.bool false) .nil))) .nil)))

theorem sampleVal_ty (p : Prop) : HasTy sampleLib p sampleVal sampleTy := by
  have hl (t : Ty) (d : Nat) (h : sampleLib.head d = t) : Is sampleLib (.named d) t := .inr ⟨d, rfl, h⟩
  have hap (fs : NTys) (h : ∀ n ∈ fs.toList.map Prod.fst, ∀ c ∈ n, c.toNat < 0x300)
      (h' : (fs.toList.map Prod.fst).Pairwise (· ≠ ·)) : Apart sampleLib fs := by
    have e : (fs.toList.map fun f => sampleLib.N.nfc f.1) = fs.toList.map Prod.fst := by
      refine List.map_congr_left fun x hx => hangul_lawful.ascii _ (h x.1 (List.mem_map.mpr ⟨x, hx, rfl⟩))
    rw [Apart, e]
    exact h'
  have hlist := hap (.cons "Nil".toList .unit (.cons "Cons".toList (.tuple (.cons .float (.cons (.named 0) .nil))) .nil))
    (by decide) (by decide)
  rw [sampleVal, sampleTy, HasTy]
  refine .inr ⟨_, .inl rfl, hap _ (by decide) (by decide), ?_⟩
  simp only [FieldsTy]
  refine ⟨_, _, _, rfl, ?_, _, _, _, rfl, ?_, _, _, _, rfl, ?_, rfl⟩
  · rw [HasTy]
    refine ⟨_, _, hl _ 0 rfl, hlist, List.mem_cons_of_mem _ List.mem_cons_self, ?_⟩
    rw [HasTy]
    refine .inl ⟨_, .inl rfl, ?_⟩
    simp only [ItemsTy]
    refine ⟨_, _, rfl, by rw [HasTy]; exact .inl rfl, _, _, rfl, ?_, rfl⟩
    rw [HasTy]
    exact ⟨_, _, hl _ 0 rfl, hlist, List.mem_cons_self, by rw [HasTy]; exact .inl rfl⟩
  · rw [HasTy]
    refine ⟨_, .inl rfl, ?_, ?_⟩
    · simp [AllTy, HasTy, Is]
    · simp [Vals.toList, sampleLib, norm]
  · rw [HasTy]
    refine ⟨_, _, .inl rfl, ?_, ?_⟩
    · simp [EntriesTy, HasTy, Is]
    · simp [Entries.toList, sampleLib, norm]

/-- The data of the value. -/
def sampleData : Data Nat :=
  .record (.cons "a".toList (.variant "Cons".toList (.tuple (.cons (.float 4) (.cons (.variant "Nil".toList .unit) .nil))))
    (.cons "b".toList (.set (.cons (.string "x".toList) (.cons (.string "y".toList) .nil)))
      (.cons "c".toList (.map (.cons (.int 7) (.bool true) (.cons (.int 8) (.bool false) .nil))) .nil)))

theorem sampleVal_data : serialize sampleLib sampleVal sampleTy = some sampleData := by
  simp [sampleVal, sampleTy, sampleData, serialize, shape, serializeFields, serializeAll, serializeEntries, serializeItems, fresh,
    payloadTy, sampleLib, hangul, compose, hangulPair]

example : ∃ d, serialize sampleLib sampleVal sampleTy = some d ∧ ∃ w, deserialize sampleLib d sampleTy = some w ∧ Same Eq sampleVal w :=
  C68_round_trip_partial hangul_lawful sampleLib_keys (sampleVal_ty False)

theorem halves_numeral (n : Nat) : Numeral (halves.showFloat n) := by
  refine ⟨[], toDec (n / 2), if n % 2 = 1 then ['.', '5'] else [], rfl, .inl rfl, toDec_digits _, toDec_numeral _, ?_⟩
  split
  · exact .inr ⟨['5'], rfl, by decide, by decide⟩
  · exact .inl rfl

theorem halves_int (n : Nat) (i : Int) (h : readInt (halves.showFloat n) = some i) : n = sampleLib.fromInt i := by
  change readInt (toDec (n / 2) ++ if n % 2 = 1 then ['.', '5'] else []) = some i at h
  by_cases hn : n % 2 = 1
  · rw [if_pos hn] at h
    have hd : ∀ acc, decDigits acc ['.', '5'] = none := fun acc => rfl
    have hlast : decDigits 0 (toDec (n / 2) ++ ['.', '5']) = none := by rw [decDigits_append, decDigits_toDec, Option.bind_some, hd]
    rw [readInt.eq_def] at h
    split at h
    · cases h
    · cases h
    · rename_i rest _ e
      obtain ⟨c, r, hc⟩ := List.exists_cons_of_ne_nil (toDec_ne_nil (n / 2))
      have := toDec_digits (n / 2) c (by rw [hc]; exact List.mem_cons_self)
      rw [hc] at e
      rw [(List.cons.inj e).1] at this
      exact absurd this (by decide)
    · rw [hlast] at h
      cases h
  · rw [if_neg hn, List.append_nil, readInt_digits (toDec_ne_nil _) (toDec_digits _), decDigits_toDec, Option.bind_some] at h
    split at h
    · cases h
      simp [sampleLib]
      omega
    · cases h

theorem sampleData_json : JsonOk halves sampleData := by
  have h (s : Text) (hs : ∀ c ∈ s, c.toNat < 0x300) : JsonStringOk halves.N s :=
    ⟨hangul_lawful.ascii s hs, fun a b c d e hc => hangul_lawful.opens d (hs d (by simp [e]))⟩
  simp only [sampleData, JsonOk, FieldsJsonOk, ItemsJsonOk, PairsJsonOk, and_true, true_and]
  exact ⟨h _ (by decide), ⟨h _ (by decide), h _ (by decide)⟩, h _ (by decide), ⟨h _ (by decide), h _ (by decide)⟩, h _ (by decide),
    by simp [IntRange], by simp [IntRange]⟩

example : ∃ s, jsonEncode sampleLib halves sampleVal sampleTy = some s ∧
    ∃ w, jsonDecode sampleLib halves s sampleTy = some w ∧ Same Eq sampleVal w :=
  C69_round_trip_partial halves_lawful rfl sampleLib_keys halves_numeral (fun _ => rfl) halves_int (sampleVal_ty True)
    fun d hd => by rw [sampleVal_data] at hd; cases hd; exact sampleData_json

theorem sampleData_text : Printable halves (textForm (textNum halves) sampleData) := by
  have hs (s : Text) (h : ∀ c ∈ s, c.toNat < 0x300) : StringOk halves.N s := ascii_stringOk halves_lawful h
  have hw : ∀ {c : Char} {r : Text}, identStart c = true → (∀ x ∈ r, identContinue x = true) → Word (c :: r) :=
    fun h1 h2 => ⟨_, _, rfl, h1, h2⟩
  have ht : textNum halves 4 = .int 2 := by
    have : halves.showFloat 4 = showInt 2 := by simp [halves, showHalf, showInt]
    rw [textNum, this, readInt_showInt (by simp [IntRange])]
    simp
  simp only [sampleData, textForm, textFields, textItems, textPairs, ht, Printable, FieldsPrintable, ItemsPrintable, PairsPrintable]
  exact ⟨.inl (hw (by decide) (by decide)), ⟨hw (by decide) (by decide), by decide, trivial, trivial, by simp [IntRange], ⟨hw (by decide) (by decide), by decide, trivial, trivial⟩,
      trivial⟩,
    .inl (hw (by decide) (by decide)), ⟨hs _ (by decide), hs _ (by decide), trivial⟩, .inl (hw (by decide) (by decide)),
    ⟨by simp [IntRange], trivial, by simp [IntRange], trivial, trivial⟩, trivial⟩

example : ∃ s, textEncode sampleLib halves sampleVal sampleTy = some s ∧
    ∃ w, textDecode sampleLib halves s sampleTy = some w ∧ Same Eq sampleVal w :=
  C70_round_trip_partial halves_lawful rfl sampleLib_keys (fun _ => rfl) halves_int (sampleVal_ty True)
    fun d hd => by rw [sampleVal_data] at hd; cases hd; exact sampleData_text

example : (serialize sampleLib (.variant "Cons".toList (.tuple (.cons (.float 4) (.cons (.variant "Nil".toList .unit) .nil)))) (.named 0)).bind
    (fun d => deserialize sampleLib d (.named 0)) =
      some (.variant "Cons".toList (.tuple (.cons (.float 4) (.cons (.variant "Nil".toList .unit) .nil)))) := by
  have h := sampleVal_ty False
  rw [sampleVal, sampleTy, HasTy] at h
  rcases h with ⟨_, h | ⟨_, h, _⟩, _⟩ | ⟨_, h | ⟨_, h, _⟩, _, h'⟩
  · cases h
  · cases h
  · cases h
    simp only [FieldsTy] at h'
    obtain ⟨_, _, _, e, h, _⟩ := h'
    cases e
    exact C68_exact_partial hangul_lawful sampleLib_keys h (by simp [Ordered, OrderedAll])
  · cases h

/-- `Some {x: 1}` as data text. -/
example : ∃ s, textEncode sampleLib halves (.variant "Some".toList (.tuple (.cons (.tuple (.cons (.int 1) .nil)) .nil)))
      (.variant (.cons "Some".toList (.tuple (.cons (.record (.cons "x".toList .int .nil)) .nil)) .nil)) = some s ∧
    textDecode sampleLib halves s
      (.variant (.cons "Some".toList (.tuple (.cons (.record (.cons "x".toList .int .nil)) .nil)) .nil)) = none := by
  refine C70_record_payload_violated halves_lawful rfl ⟨'S', "ome".toList, rfl, by decide, by decide⟩ (by decide)
    (by simp [Apart, NTys.toList]) List.mem_cons_self (o := .cons "x".toList (.int 1) .nil) ?_ ?_
  · simp [serializeFields, serialize, shape, fresh, sampleLib, hangul, compose]
  · simp only [Printable, FieldsPrintable, and_true]
    exact ⟨.inl ⟨'x', [], rfl, by decide, by decide⟩, by simp [IntRange]⟩

end Ferlium.Serde
