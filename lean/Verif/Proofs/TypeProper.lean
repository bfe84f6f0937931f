import Verif.Proofs.TypeRound

/-!
# Helper lemmas on types that are read: they are in normal form
-/

namespace Ferlium.TypeText

/-- Effects in order, each once. -/
def EffsProper : List Eff → Prop
  | [] => True
  | e :: rest => (∀ f ∈ rest, e.key < f.key) ∧ EffsProper rest

/-- The labels are names, and `P` holds for them. -/
def Tys.AllNames (P : String → Prop) : Tys → Prop
  | .nil => True
  | .cons (.name s) _ rest => P s ∧ rest.AllNames P
  | .cons _ _ _ => False

/-- The labels are names in strictly ascending order. -/
def Tys.Ascending : Tys → Prop
  | .nil => True
  | .cons (.name s) _ rest => rest.AllNames (s < ·) ∧ rest.Ascending
  | .cons _ _ _ => False

mutual
/-- Normal form of types: tuples and variants are not empty, fields and alternatives are listed in
the order of their names and no name occurs twice, names of alternatives are in `ok`, effects are
listed in their order and no effect occurs twice. -/
def Ty.Proper (ok : String → Prop) : Ty → Prop
  | .var _ => True
  | .unit => True
  | .never => True
  | .native _ ts => Tys.Proper ok ts
  | .variant ts => ts ≠ .nil ∧ ts.Ascending ∧ ts.AllNames ok ∧ Tys.Proper ok ts
  | .tuple ts => ts ≠ .nil ∧ Tys.Proper ok ts
  | .record ts => ts.Ascending ∧ Tys.Proper ok ts
  | .fn ts r e => Tys.Proper ok ts ∧ Ty.Proper ok r ∧ EffsProper e
  | .array t => Ty.Proper ok t
  | .named _ ts es => Tys.Proper ok ts ∧ ∀ e ∈ es, EffsProper e
/-- All elements. -/
def Tys.Proper (ok : String → Prop) : Tys → Prop
  | .nil => True
  | .cons _ t rest => Ty.Proper ok t ∧ Tys.Proper ok rest
end

theorem Tys.AllNames.imp {P Q : String → Prop} (h : ∀ s, P s → Q s) :
    ∀ (ts : Tys), ts.AllNames P → ts.AllNames Q
  | .nil, _ => trivial
  | .cons (.name s) _ rest, hp => ⟨h s hp.1, Tys.AllNames.imp h rest hp.2⟩
  | .cons .plain _ _, hp => hp.elim
  | .cons .mut _ _, hp => hp.elim
  | .cons .anyMut _ _, hp => hp.elim

/-! ## Effects -/

theorem mem_insertEff {e f : Eff} {l : List Eff} (h : f ∈ insertEff e l) : f = e ∨ f ∈ l := by
  induction l with
  | nil => simpa [insertEff] using h
  | cons g l ih =>
    simp only [insertEff] at h
    split at h
    · simpa using h
    · split at h
      · exact .inr h
      · rcases List.mem_cons.mp h with rfl | h
        · exact .inr List.mem_cons_self
        · rcases ih h with h | h
          · exact .inl h
          · exact .inr (List.mem_cons_of_mem _ h)

theorem insertEff_proper {e : Eff} {l : List Eff} (h : EffsProper l) :
    EffsProper (insertEff e l) := by
  induction l with
  | nil => exact ⟨by simp, trivial⟩
  | cons g l ih =>
    simp only [insertEff]
    split
    · rename_i hlt
      refine ⟨?_, h⟩
      intro f hf
      rcases List.mem_cons.mp hf with rfl | hf
      · exact hlt
      · have := h.1 f hf; omega
    · rename_i hge
      split
      · exact h
      · refine ⟨?_, ih h.2⟩
        intro f hf
        rcases mem_insertEff hf with rfl | hf
        · omega
        · exact h.1 f hf

theorem effsNamed_proper {E : Env} {l : List String} {acc r : List Eff} (h : EffsProper acc)
    (hr : effsNamed E l acc = some r) : EffsProper r := by
  induction l generalizing acc with
  | nil => simp only [effsNamed, Option.some.injEq] at hr; exact hr ▸ h
  | cons s l ih =>
    simp only [effsNamed, Option.bind_eq_some_iff] at hr
    obtain ⟨e, _, hr⟩ := hr
    exact ih (insertEff_proper h) hr

theorem toEffs_proper {E : Env} {p : PEffs} {r : List Eff} (h : toEffs E p = some r) :
    EffsProper r := by
  cases p with
  | pure => simp only [toEffs, Option.some.injEq] at h; exact h ▸ trivial
  | generic => simp only [toEffs, Option.some.injEq] at h; exact h ▸ ⟨by simp, trivial⟩
  | names es => exact effsNamed_proper (acc := []) trivial h

theorem toEffArgs_proper {E : Env} {l : List String} {r : List (List Eff)}
    (h : toEffArgs E l = some r) : ∀ e ∈ r, EffsProper e := by
  induction l generalizing r with
  | nil => simp only [toEffArgs, Option.some.injEq] at h; subst h; simp
  | cons s l ih =>
    simp only [toEffArgs, Option.bind_eq_some_iff, Option.map_eq_some_iff] at h
    obtain ⟨e, he, r', hr', rfl⟩ := h
    intro f hf
    rcases List.mem_cons.mp hf with rfl | hf
    · exact effsNamed_proper (acc := []) trivial he
    · exact ih hr' f hf

/-! ## Sorting -/

theorem insertSorted_names {P : String → Prop} {s : String} {t : Ty} (hs : P s) :
    ∀ {ts : Tys}, ts.AllNames P → (Tys.insertSorted s t ts).AllNames P
  | .nil, _ => ⟨hs, trivial⟩
  | .cons (.name s') t' rest, h => by
    simp only [Tys.insertSorted]
    split
    · exact ⟨h.1, insertSorted_names hs h.2⟩
    · exact ⟨hs, h⟩
  | .cons .plain _ _, h => h.elim
  | .cons .mut _ _, h => h.elim
  | .cons .anyMut _ _, h => h.elim

theorem insertSorted_ascending {s : String} {t : Ty} :
    ∀ {ts : Tys}, ts.Ascending → ts.AllNames (· ≠ s) → (Tys.insertSorted s t ts).Ascending
  | .nil, _, _ => ⟨trivial, trivial⟩
  | .cons (.name s') t' rest, h, hne => by
    simp only [Tys.insertSorted]
    split
    · rename_i hlt
      exact ⟨insertSorted_names hlt h.1, insertSorted_ascending h.2 hne.2⟩
    · rename_i hge
      have hlt : s < s' := by
        have := hne.1
        rcases Std.lt_trichotomy s s' with h1 | h1 | h1
        · exact h1
        · exact absurd h1.symm this
        · exact absurd h1 hge
      exact ⟨⟨hlt, Tys.AllNames.imp (fun x hx => String.lt_trans hlt hx) _ h.1⟩, h⟩
  | .cons .plain _ _, h, _ => h.elim
  | .cons .mut _ _, h, _ => h.elim
  | .cons .anyMut _ _, h, _ => h.elim

theorem insertSorted_proper {ok : String → Prop} {s : String} {t : Ty} (ht : t.Proper ok) :
    ∀ {ts : Tys}, ts.Proper ok → (Tys.insertSorted s t ts).Proper ok
  | .nil, h => by simp [Tys.insertSorted, Tys.Proper, ht]
  | .cons (.name s') t' rest, h => by
    simp only [Tys.Proper] at h
    simp only [Tys.insertSorted]
    split
    · simp only [Tys.Proper]
      exact ⟨h.1, insertSorted_proper ht h.2⟩
    · simp only [Tys.Proper]
      exact ⟨ht, h⟩
  | .cons .plain _ _, h => by simp only [Tys.Proper] at h; simp only [Tys.insertSorted, Tys.Proper]; exact ⟨ht, h⟩
  | .cons .mut _ _, h => by simp only [Tys.Proper] at h; simp only [Tys.insertSorted, Tys.Proper]; exact ⟨ht, h⟩
  | .cons .anyMut _ _, h => by simp only [Tys.Proper] at h; simp only [Tys.insertSorted, Tys.Proper]; exact ⟨ht, h⟩

/-- The labels are names, and no name occurs twice. -/
def Tys.Distinct : Tys → Prop
  | .nil => True
  | .cons (.name s) _ rest => rest.AllNames (· ≠ s) ∧ rest.Distinct
  | .cons _ _ _ => False

theorem sort_names {P : String → Prop} : ∀ {ts : Tys}, ts.AllNames P → ts.sort.AllNames P
  | .nil, _ => trivial
  | .cons (.name s) t rest, h => by
    simp only [Tys.sort]
    exact insertSorted_names h.1 (sort_names h.2)
  | .cons .plain _ _, h => h.elim
  | .cons .mut _ _, h => h.elim
  | .cons .anyMut _ _, h => h.elim

theorem sort_ascending : ∀ {ts : Tys}, ts.Distinct → ts.sort.Ascending
  | .nil, _ => trivial
  | .cons (.name s) t rest, h => by
    simp only [Tys.sort]
    exact insertSorted_ascending (sort_ascending h.2) (sort_names h.1)
  | .cons .plain _ _, h => h.elim
  | .cons .mut _ _, h => h.elim
  | .cons .anyMut _ _, h => h.elim

theorem sort_proper {ok : String → Prop} : ∀ {ts : Tys}, ts.Proper ok → ts.sort.Proper ok
  | .nil, _ => by simp [Tys.sort, Tys.Proper]
  | .cons (.name s) t rest, h => by
    simp only [Tys.Proper] at h
    simp only [Tys.sort]
    exact insertSorted_proper h.1 (sort_proper h.2)
  | .cons .plain _ _, h => by simp only [Tys.Proper] at h; simp only [Tys.sort]; exact sort_proper h.2
  | .cons .mut _ _, h => by simp only [Tys.Proper] at h; simp only [Tys.sort]; exact sort_proper h.2
  | .cons .anyMut _ _, h => by simp only [Tys.Proper] at h; simp only [Tys.sort]; exact sort_proper h.2

theorem insertSorted_ne (s : String) (t : Ty) (ts : Tys) : Tys.insertSorted s t ts ≠ .nil := by
  cases ts with
  | nil => simp [Tys.insertSorted]
  | cons l _ _ =>
    cases l <;> simp only [Tys.insertSorted] <;> try simp
    split <;> simp

theorem mkVariant_proper {ok : String → Prop} {ts : Tys} (h : ts.Proper ok) (hd : ts.Distinct)
    (hn : ts.AllNames ok) : (mkVariant ts).Proper ok := by
  cases ts with
  | nil => simp [mkVariant, Ty.Proper]
  | cons l t rest =>
    simp only [mkVariant, Ty.Proper]
    refine ⟨?_, sort_ascending hd, sort_names hn, sort_proper h⟩
    cases l with
    | name s => exact insertSorted_ne s t _
    | plain => exact hd.elim
    | «mut» => exact hd.elim
    | anyMut => exact hd.elim

/-! ## Instances of aliases -/

theorem inst_names {P : String → Prop} {args : Tys} :
    ∀ {ts : Tys}, ts.AllNames P → (Tys.inst args ts).AllNames P
  | .nil, _ => by simp [Tys.inst, Tys.AllNames]
  | .cons (.name s) t rest, h => by
    simp only [Tys.inst]
    exact ⟨h.1, inst_names h.2⟩
  | .cons .plain _ _, h => h.elim
  | .cons .mut _ _, h => h.elim
  | .cons .anyMut _ _, h => h.elim

theorem inst_ascending {args : Tys} : ∀ {ts : Tys}, ts.Ascending → (Tys.inst args ts).Ascending
  | .nil, _ => by simp [Tys.inst, Tys.Ascending]
  | .cons (.name s) t rest, h => by
    simp only [Tys.inst]
    exact ⟨inst_names h.1, inst_ascending h.2⟩
  | .cons .plain _ _, h => h.elim
  | .cons .mut _ _, h => h.elim
  | .cons .anyMut _ _, h => h.elim

theorem inst_ne {args : Tys} {ts : Tys} (h : ts ≠ .nil) : Tys.inst args ts ≠ .nil := by
  cases ts with
  | nil => exact absurd rfl h
  | cons _ _ _ => simp [Tys.inst]

theorem get_proper {ok : String → Prop} : ∀ {args : Tys} {n : Nat} {t : Ty}, args.Proper ok →
    args.get n = some t → t.Proper ok
  | .nil, _, _, _, h => by cases h
  | .cons _ t rest, 0, _, hp, h => by
    simp only [Tys.Proper] at hp
    simp only [Tys.get, Option.some.injEq] at h
    exact h ▸ hp.1
  | .cons _ t rest, n + 1, _, hp, h => by
    simp only [Tys.Proper] at hp
    exact get_proper hp.2 h

mutual
theorem Ty.inst_proper {ok : String → Prop} {args : Tys} (ha : args.Proper ok) :
    ∀ (t : Ty), t.Proper ok → (Ty.inst args t).Proper ok
  | .var n, _ => by
    simp only [Ty.inst]
    cases hg : args.get n with
    | none => simp [Ty.Proper]
    | some t => exact get_proper ha hg
  | .unit, _ => by simp [Ty.inst, Ty.Proper]
  | .never, _ => by simp [Ty.inst, Ty.Proper]
  | .native b ts, h => by
    simp only [Ty.Proper] at h; simp only [Ty.inst, Ty.Proper]; exact Tys.inst_proper ha ts h
  | .variant ts, h => by
    simp only [Ty.Proper] at h; simp only [Ty.inst, Ty.Proper]
    exact ⟨inst_ne h.1, inst_ascending h.2.1, inst_names h.2.2.1, Tys.inst_proper ha ts h.2.2.2⟩
  | .tuple ts, h => by
    simp only [Ty.Proper] at h; simp only [Ty.inst, Ty.Proper]
    exact ⟨inst_ne h.1, Tys.inst_proper ha ts h.2⟩
  | .record ts, h => by
    simp only [Ty.Proper] at h; simp only [Ty.inst, Ty.Proper]
    exact ⟨inst_ascending h.1, Tys.inst_proper ha ts h.2⟩
  | .fn ts r e, h => by
    simp only [Ty.Proper] at h; simp only [Ty.inst, Ty.Proper]
    exact ⟨Tys.inst_proper ha ts h.1, Ty.inst_proper ha r h.2.1, h.2.2⟩
  | .array t, h => by
    simp only [Ty.Proper] at h; simp only [Ty.inst, Ty.Proper]; exact Ty.inst_proper ha t h
  | .named d ts es, h => by
    simp only [Ty.Proper] at h; simp only [Ty.inst, Ty.Proper]
    exact ⟨Tys.inst_proper ha ts h.1, h.2⟩
theorem Tys.inst_proper {ok : String → Prop} {args : Tys} (ha : args.Proper ok) :
    ∀ (ts : Tys), ts.Proper ok → (Tys.inst args ts).Proper ok
  | .nil, _ => by simp [Tys.inst, Tys.Proper]
  | .cons _ t rest, h => by
    simp only [Tys.Proper] at h; simp only [Tys.inst, Tys.Proper]
    exact ⟨Ty.inst_proper ha t h.1, Tys.inst_proper ha rest h.2⟩
end

/-! ## Reading -/

theorem plainType_proper {ok : String → Prop} {r : Res} {t : Ty}
    (hr : ∀ n u, r = .alias n u → u.Proper ok) (h : plainType r = some t) : t.Proper ok := by
  cases r with
  | «alias» n u =>
    simp only [plainType] at h
    split at h
    · rename_i hc
      exact hr n u rfl |> fun hu => (Option.some.inj h) ▸ hu
    · cases h
  | definition d n e =>
    simp only [plainType] at h
    split at h
    · cases h; simp [Ty.Proper, Tys.Proper]
    · cases h
  | native b => simp only [plainType, Option.some.injEq] at h; subst h; simp [Ty.Proper, Tys.Proper]

theorem appliedType_proper {ok : String → Prop} {r : Res} {t : Ty} {args : Tys}
    {es : List (List Eff)} (ha : args.Proper ok) (he : ∀ e ∈ es, EffsProper e)
    (hr : ∀ n u, r = .alias n u → u.Proper ok) (h : appliedType args es r = some t) :
    t.Proper ok := by
  cases r with
  | «alias» n u =>
    simp only [appliedType] at h
    split at h
    · cases h; exact Ty.inst_proper ha u (hr n u rfl)
    · cases h
  | definition d n e =>
    simp only [appliedType] at h
    split at h
    · cases h; simp only [Ty.Proper]; exact ⟨ha, he⟩
    · cases h
  | native b =>
    simp only [appliedType] at h
    split at h
    · cases h; simpa only [Ty.Proper] using ha
    · cases h

mutual
theorem PTy.toTy_proper {ok : String → Prop} {E : Env}
    (hE : ∀ p n u, E.resolve p = some (.alias n u) → u.Proper ok)
    (hok : ∀ s, nameTaken E s = false → ok s) :
    ∀ (a : PTy) (t : Ty), a.toTy E = some t → t.Proper ok
  | .unit, t, h => by simp only [PTy.toTy, Option.some.injEq] at h; subst h; simp [Ty.Proper]
  | .infer, t, h => by simp only [PTy.toTy, Option.some.injEq] at h; subst h; simp [Ty.Proper]
  | .path p, t, h => by
    have hlong : (E.resolve p).bind plainType = some t → t.Proper ok := by
      intro h
      obtain ⟨r, hr, h⟩ := Option.bind_eq_some_iff.mp h
      exact plainType_proper (fun n u e => hE p n u (e ▸ hr)) h
    match p, h with
    | [], h => exact hlong h
    | [s], h =>
      simp only [PTy.toTy] at h
      split at h
      · cases h; simp [Ty.Proper]
      · rename_i hty
        split at h
        · rename_i r hr
          exact plainType_proper (fun n u e => hE [s] n u (e ▸ hr)) h
        · rename_i hr
          cases h
          refine mkVariant_proper (by simp [Tys.Proper, Ty.Proper]) ⟨trivial, trivial⟩
            ⟨hok s (by simp [nameTaken, hty, hr]), trivial⟩
    | _ :: _ :: _, h => exact hlong h
  | .app p args effs, t, h => by
    simp only [PTy.toTy] at h
    obtain ⟨r, hr, h⟩ := Option.bind_eq_some_iff.mp h
    obtain ⟨as, has, h⟩ := Option.bind_eq_some_iff.mp h
    obtain ⟨es, hes, h⟩ := Option.bind_eq_some_iff.mp h
    exact appliedType_proper (PTys.toTys_proper hE hok args as has) (toEffArgs_proper hes)
      (fun n u e => hE p n u (e ▸ hr)) h
  | .variant items, t, h => by
    simp only [PTy.toTy, Option.map_eq_some_iff] at h
    obtain ⟨ts, hts, rfl⟩ := h
    obtain ⟨h1, h2, h3, _⟩ := PTys.toAlts_proper hE hok items [] ts hts
    exact mkVariant_proper h1 h2 h3
  | .tuple items, t, h => by
    simp only [PTy.toTy, Option.map_eq_some_iff] at h
    obtain ⟨ts, hts, rfl⟩ := h
    have := PTys.toTys_proper hE hok items ts hts
    cases ts with
    | nil => simp [mkTuple, Ty.Proper]
    | cons l t rest => simp only [mkTuple, Ty.Proper]; exact ⟨by simp, this⟩
  | .record items, t, h => by
    simp only [PTy.toTy, Option.map_eq_some_iff] at h
    obtain ⟨ts, hts, rfl⟩ := h
    obtain ⟨h1, h2, _⟩ := PTys.toFields_proper hE hok items [] ts hts
    simp only [Ty.Proper]
    exact ⟨sort_ascending h2, sort_proper h1⟩
  | .array a, t, h => by
    simp only [PTy.toTy, Option.map_eq_some_iff] at h
    obtain ⟨u, hu, rfl⟩ := h
    simpa only [Ty.Proper] using PTy.toTy_proper hE hok a u hu
  | .fn args ret effs, t, h => by
    simp only [PTy.toTy] at h
    obtain ⟨as, has, h⟩ := Option.bind_eq_some_iff.mp h
    obtain ⟨r, hr, h⟩ := Option.bind_eq_some_iff.mp h
    obtain ⟨e, he, rfl⟩ := Option.map_eq_some_iff.mp h
    simp only [Ty.Proper]
    exact ⟨PTys.toTys_proper hE hok args as has, PTy.toTy_proper hE hok ret r hr,
      toEffs_proper he⟩
theorem PTys.toTys_proper {ok : String → Prop} {E : Env}
    (hE : ∀ p n u, E.resolve p = some (.alias n u) → u.Proper ok)
    (hok : ∀ s, nameTaken E s = false → ok s) :
    ∀ (a : PTys) (ts : Tys), a.toTys E = some ts → ts.Proper ok
  | .nil, ts, h => by simp only [PTys.toTys, Option.some.injEq] at h; subst h; simp [Tys.Proper]
  | .cons l a rest, ts, h => by
    simp only [PTys.toTys] at h
    obtain ⟨u, hu, h⟩ := Option.bind_eq_some_iff.mp h
    obtain ⟨us, hus, rfl⟩ := Option.map_eq_some_iff.mp h
    simp only [Tys.Proper]
    exact ⟨PTy.toTy_proper hE hok a u hu, PTys.toTys_proper hE hok rest us hus⟩
theorem PTys.toFields_proper {ok : String → Prop} {E : Env}
    (hE : ∀ p n u, E.resolve p = some (.alias n u) → u.Proper ok)
    (hok : ∀ s, nameTaken E s = false → ok s) :
    ∀ (a : PTys) (seen : List String) (ts : Tys), a.toFields E seen = some ts →
      ts.Proper ok ∧ ts.Distinct ∧ ts.AllNames (· ∉ seen)
  | .nil, seen, ts, h => by
    simp only [PTys.toFields, Option.some.injEq] at h; subst h
    simp [Tys.Proper, Tys.Distinct, Tys.AllNames]
  | .cons (.name s) a rest, seen, ts, h => by
    simp only [PTys.toFields] at h
    split at h
    · cases h
    · rename_i hs
      obtain ⟨u, hu, h⟩ := Option.bind_eq_some_iff.mp h
      obtain ⟨us, hus, rfl⟩ := Option.map_eq_some_iff.mp h
      obtain ⟨h1, h2, h3⟩ := PTys.toFields_proper hE hok rest (s :: seen) us hus
      simp only [Tys.Proper]
      refine ⟨⟨PTy.toTy_proper hE hok a u hu, h1⟩,
        ⟨Tys.AllNames.imp (Q := (· ≠ s)) (fun x hx (e : x = s) => hx (e ▸ List.mem_cons_self)) _ h3, h2⟩, hs,
        Tys.AllNames.imp (fun x hx hm => hx (List.mem_cons_of_mem _ hm)) _ h3⟩
  | .cons .plain _ _, _, _, h => by simp [PTys.toFields] at h
  | .cons .mut _ _, _, _, h => by simp [PTys.toFields] at h
  | .cons .anyMut _ _, _, _, h => by simp [PTys.toFields] at h
theorem PTys.toAlts_proper {ok : String → Prop} {E : Env}
    (hE : ∀ p n u, E.resolve p = some (.alias n u) → u.Proper ok)
    (hok : ∀ s, nameTaken E s = false → ok s) :
    ∀ (a : PTys) (seen : List String) (ts : Tys), a.toAlts E seen = some ts →
      ts.Proper ok ∧ ts.Distinct ∧ ts.AllNames ok ∧ ts.AllNames (· ∉ seen)
  | .nil, seen, ts, h => by
    simp only [PTys.toAlts, Option.some.injEq] at h; subst h
    simp [Tys.Proper, Tys.Distinct, Tys.AllNames]
  | .cons (.name s) a rest, seen, ts, h => by
    simp only [PTys.toAlts] at h
    split at h
    · cases h
    · rename_i hs
      split at h
      · cases h
      · rename_i ht
        obtain ⟨u, hu, h⟩ := Option.bind_eq_some_iff.mp h
        obtain ⟨us, hus, rfl⟩ := Option.map_eq_some_iff.mp h
        obtain ⟨h1, h2, h3, h4⟩ := PTys.toAlts_proper hE hok rest (s :: seen) us hus
        simp only [Tys.Proper]
        refine ⟨⟨PTy.toTy_proper hE hok a u hu, h1⟩,
          ⟨Tys.AllNames.imp (Q := (· ≠ s)) (fun x hx (e : x = s) => hx (e ▸ List.mem_cons_self)) _ h4, h2⟩,
          ⟨hok s (by simpa using ht), h3⟩, hs,
          Tys.AllNames.imp (fun x hx hm => hx (List.mem_cons_of_mem _ hm)) _ h4⟩
  | .cons .plain _ _, _, _, h => by simp [PTys.toAlts] at h
  | .cons .mut _ _, _, _, h => by simp [PTys.toAlts] at h
  | .cons .anyMut _ _, _, _, h => by simp [PTys.toAlts] at h
end

end Ferlium.TypeText
