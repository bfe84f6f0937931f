import Verif.Model.Destructure

/-!
C57: a destructuring binding evaluates its source once and binds each name to its component.
-/
namespace Ferlium.Destructure

variable {V σ : Type} (W : World V σ)

/-! ### What a destructuring binding means -/

mutual

/-- The components a pattern names, from left to right. -/
def Pat.components : Pat → V → σ → Option (List (String × V) × σ)
  | .bind n, v, s => some ([(n, v)], s)
  | .ignore, _, s => some ([], s)
  | .product _ parts, v, s => parts.components v s

/-- The components the parts name; those under `_` are not even looked at. -/
def Parts.components : Parts → V → σ → Option (List (String × V) × σ)
  | .nil, _, s => some ([], s)
  | .cons _ .ignore rest, v, s => rest.components v s
  | .cons key p rest, v, s =>
    (W.get key v s).bind fun q => (p.components q.1 q.2).bind fun a =>
      (rest.components v a.2).map fun b => (a.1 ++ b.1, b.2)

end

/-- New bindings on top of the old ones. -/
def bindAll (env : Env V) (bs : List (String × V)) : Env V :=
  bs.foldl (fun env b => (.user b.1, b.2) :: env) env

/-- `let pattern = source;`: evaluate the source, take its components, bind them. -/
def declare (p : Pat) (e : Expr V) (env : Env V) (s : σ) : Option (Env V × σ) :=
  (eval W e env s).bind fun r => (p.components W r.1 r.2.2).map fun b => (bindAll r.2.1 b.1, b.2)

/-- Both fail, or both end in the same state, where the names of the user have the same values. -/
def Agree (a b : Option (Env V × σ)) : Prop :=
  match a, b with
  | none, none => True
  | some x, some y => x.2 = y.2 ∧ ∀ n, x.1.get (.user n) = y.1.get (.user n)
  | _, _ => False

/-- The local an expression is a component of. -/
def Expr.root : Expr V → Option Name
  | .ident n => some n
  | .lit _ => none
  | .get _ e => e.root
  | .constraint e => e.root
  | .ascription e => e.root
  | .other _ => none

/-- Access to fields runs no code with effects, nor code which depends on the state. -/
def PureFields : Prop := ∃ f : String → V → Option V, ∀ n v s, W.field n v s = (f n v).map (·, s)

/-! ### Helpers -/

/-- A name which exists before the counter has reached `k`. -/
def Old (k : Nat) : Name → Prop
  | .user _ => True
  | .made j => j < k

/-- Locals which agree on the old names. -/
def Rel (k : Nat) (a b : Env V) : Prop := ∀ n, Old k n → a.get n = b.get n

theorem Old.mono {k k' : Nat} (h : k ≤ k') {n : Name} (ho : Old k n) : Old k' n := by
  cases n with
  | user _ => trivial
  | made j => exact Nat.lt_of_lt_of_le ho h

theorem Rel.mono {k k' : Nat} (h : k ≤ k') {a b : Env V} (hr : Rel k' a b) : Rel k a b :=
  fun n ho => hr n (ho.mono h)

theorem get_cons (n : Name) (v : V) (env : Env V) (m : Name) :
    Env.get ((n, v) :: env) m = if n = m then some v else env.get m := rfl

theorem Rel.bindAll {k : Nat} {a b : Env V} (hr : Rel k a b) (bs : List (String × V)) :
    Rel k (bindAll a bs) (bindAll b bs) := by
  induction bs generalizing a b with
  | nil => exact hr
  | cons x bs ih =>
    apply ih
    intro n ho
    simp only [get_cons, hr n ho]

theorem bindAll_get (n : Name) (bs : List (String × V)) (env : Env V)
    (h : ∀ b ∈ bs, Name.user b.1 ≠ n) : (bindAll env bs).get n = env.get n := by
  induction bs generalizing env with
  | nil => rfl
  | cons x bs ih =>
    have h1 := ih ((.user x.1, x.2) :: env) (fun b hb => h b (List.mem_cons_of_mem _ hb))
    show (bindAll ((Name.user x.1, x.2) :: env) bs).get n = _
    rw [h1, get_cons, if_neg (h x List.mem_cons_self)]

theorem bindAll_mem {n : String} {w : V} (bs : List (String × V)) (env : Env V) (hn : (bs.map (·.1)).Nodup)
    (hm : (n, w) ∈ bs) : (bindAll env bs).get (.user n) = some w := by
  induction bs generalizing env with
  | nil => simp at hm
  | cons b bs ih =>
    show (bindAll ((Name.user b.1, b.2) :: env) bs).get (.user n) = some w
    rw [List.map_cons, List.nodup_cons] at hn
    rcases List.mem_cons.mp hm with rfl | hm'
    · rw [bindAll_get, get_cons, if_pos rfl]
      intro b hb h
      rw [Name.user.injEq] at h
      exact hn.1 (List.mem_map.mpr ⟨b, hb, h⟩)
    · exact ih _ hn.2 hm'

theorem bindAll_append (env : Env V) (a b : List (String × V)) :
    bindAll env (a ++ b) = bindAll (bindAll env a) b := by
  simp [bindAll, List.foldl_append]

mutual

theorem Pat.components_names : ∀ (p : Pat) (v : V) (s : σ) (r : List (String × V) × σ),
    p.components W v s = some r → r.1.map (·.1) = p.binds
  | .bind n, v, s, r, h => by
    simp only [Pat.components, Option.some.injEq] at h; subst h; rfl
  | .ignore, v, s, r, h => by
    simp only [Pat.components, Option.some.injEq] at h; subst h; rfl
  | .product _ parts, v, s, r, h => Parts.components_names parts v s r h

theorem Parts.components_names : ∀ (ps : Parts) (v : V) (s : σ) (r : List (String × V) × σ),
    ps.components W v s = some r → r.1.map (·.1) = ps.binds
  | .nil, v, s, r, h => by
    simp only [Parts.components, Option.some.injEq] at h; subst h; rfl
  | .cons _ .ignore rest, v, s, r, h => by
    simp only [Parts.components] at h
    simpa [Parts.binds, Pat.binds] using Parts.components_names rest v s r h
  | .cons key (.bind n) rest, v, s, r, h => by
    simp only [Parts.components, Option.bind_eq_some_iff, Option.map_eq_some_iff] at h
    obtain ⟨q, _, a, ha, b, hb, rfl⟩ := h
    simp [Parts.binds, Pat.components_names (.bind n) _ _ a ha, Parts.components_names rest _ _ b hb]
  | .cons key (.product c ps) rest, v, s, r, h => by
    simp only [Parts.components, Option.bind_eq_some_iff, Option.map_eq_some_iff] at h
    obtain ⟨q, _, a, ha, b, hb, rfl⟩ := h
    simp [Parts.binds, Pat.components_names (.product c ps) _ _ a ha,
      Parts.components_names rest _ _ b hb]

end

theorem components_cons (key : Key) (p : Pat) (rest : Parts) (hp : p.consumes = true) (v : V) (s : σ) :
    (Parts.cons key p rest).components W v s =
    (W.get key v s).bind fun q => (p.components W q.1 q.2).bind fun a =>
      (rest.components W v a.2).map fun b => (a.1 ++ b.1, b.2) := by
  cases p with
  | ignore => simp [Pat.consumes] at hp
  | bind n => rw [Parts.components]; simp
  | product c ps => rw [Parts.components]; simp

theorem exec_append (a b : List (Stmt V)) (env : Env V) (s : σ) :
    exec W (a ++ b) env s = (exec W a env s).bind fun r => exec W b r.1 r.2 := by
  induction a generalizing env s with
  | nil => rfl
  | cons st a ih =>
    cases st with
    | bind n e =>
      simp only [List.cons_append, exec]
      cases eval W e env s with
      | none => rfl
      | some r => simp only [Option.bind_some, ih]
    | expr e =>
      simp only [List.cons_append, exec]
      cases eval W e env s with
      | none => rfl
      | some r => simp only [Option.bind_some, ih]

/-- The value of a replayable expression when fields are pure. -/
def val (f : String → V → Option V) : Expr V → Env V → Option V
  | .ident n, env => env.get n
  | .lit v, _ => some v
  | .get (.index i) e, env => (val f e env).bind (W.index i)
  | .get (.field n) e, env => (val f e env).bind (f n)
  | .constraint e, env => val f e env
  | .ascription e, env => val f e env
  | .other _, _ => none

theorem eval_val {f : String → V → Option V} (hf : ∀ n v s, W.field n v s = (f n v).map (·, s))
    (e : Expr V) (he : e.replayable = true) (env : Env V) (s : σ) :
    eval W e env s = (val W f e env).map (·, env, s) := by
  induction e with
  | ident n => rfl
  | lit v => rfl
  | get k e ih =>
    simp only [eval, ih he]
    cases hv : val W f e env with
    | none => cases k <;> simp [val, hv]
    | some v =>
      cases k with
      | index i => simp [val, hv, World.get, Function.comp_def]
      | field n => simp [val, hv, World.get, hf, Function.comp_def]
  | constraint e ih => exact ih he
  | ascription e ih => exact ih he
  | other id => simp [Expr.replayable] at he

theorem val_congr {f : String → V → Option V} (e : Expr V) (env env' : Env V)
    (h : ∀ n, e.root = some n → env.get n = env'.get n) : val W f e env = val W f e env' := by
  induction e with
  | ident n => exact h n rfl
  | lit v => rfl
  | get k e ih => cases k <;> simp only [val, ih h]
  | constraint e ih => exact ih h
  | ascription e ih => exact ih h
  | other id => rfl

/-- Agreement on the old names. -/
def Same (k : Nat) (a b : Option (Env V × σ)) : Prop :=
  match a, b with
  | none, none => True
  | some x, some y => x.2 = y.2 ∧ Rel k x.1 y.1
  | _, _ => False

theorem Same.refl (k : Nat) (a : Option (Env V × σ)) : Same k a a := by
  cases a with
  | none => trivial
  | some x => exact ⟨rfl, fun _ _ => rfl⟩

theorem Same.mono {k k' : Nat} (h : k ≤ k') {a b : Option (Env V × σ)} (hs : Same k' a b) : Same k a b := by
  cases a <;> cases b
  · trivial
  · exact hs
  · exact hs
  · exact ⟨hs.1, hs.2.mono h⟩

theorem Same.trans {k : Nat} {a b c : Option (Env V × σ)} (h : Same k a b) (h' : Same k b c) : Same k a c := by
  cases a <;> cases b <;> cases c <;> first | trivial | exact h.elim | exact h'.elim | skip
  exact ⟨h.1.trans h'.1, fun n ho => (h.2 n ho).trans (h'.2 n ho)⟩

theorem Same.agree {k : Nat} {a b : Option (Env V × σ)} (h : Same k a b) : Agree a b := by
  cases a <;> cases b
  · trivial
  · exact h
  · exact h
  · exact ⟨h.1, fun n => h.2 (.user n) trivial⟩

/-- What is asked of a source which is replayed: its local is none the pattern binds, and exists already. -/
def Apart (e : Expr V) (names : List String) (k : Nat) : Prop :=
  e.replayable = true → ∀ n, e.root = some n → (∀ b ∈ names, Name.user b ≠ n) ∧ Old k n

theorem Apart.mono {e : Expr V} {names names' : List String} {k k' : Nat} (h : Apart e names k)
    (hn : ∀ b ∈ names', b ∈ names) (hk : k ≤ k') : Apart e names' k' :=
  fun hr n hroot => ⟨fun b hb => (h hr n hroot).1 b (hn b hb), (h hr n hroot).2.mono hk⟩

mutual

theorem expand_counter : ∀ (p : Pat) (e : Expr V) (k : Nat), k ≤ (expand p e k).2
  | .bind n, e, k => Nat.le_refl _
  | .ignore, e, k => Nat.le_refl _
  | .product c parts, e, k => by
    simp only [expand]
    generalize (if c then Expr.constraint e else e) = e'
    by_cases hu : parts.uses = 0
    · rw [if_pos hu]; exact Nat.le_refl _
    · rw [if_neg hu]
      by_cases hx : (decide (parts.uses ≤ 1) || e'.replayable) = true
      · rw [if_pos hx]; exact parts_counter parts _ k
      · rw [if_neg hx]; exact Nat.le_trans (Nat.le_succ k) (parts_counter parts _ (k + 1))

theorem parts_counter : ∀ (ps : Parts) (e : Expr V) (k : Nat), k ≤ (expandParts ps e k).2
  | .nil, e, k => Nat.le_refl _
  | .cons key p rest, e, k => by
    simp only [expandParts]
    split
    · exact Nat.le_trans (expand_counter p _ k) (parts_counter rest e _)
    · exact parts_counter rest e k

end

theorem no_uses : ∀ (ps : Parts) (e : Expr V) (k : Nat), ps.uses = 0 →
    expandParts ps e k = ([], k) ∧ ∀ v s, ps.components W v s = some ([], s)
  | .nil, e, k, _ => ⟨rfl, fun v s => rfl⟩
  | .cons key p rest, e, k, h => by
    simp only [Parts.uses] at h
    cases p with
    | ignore =>
      have ih := no_uses rest e k (by omega)
      exact ⟨by simp [expandParts, Pat.consumes, ih.1], fun v s => by simp [Parts.components, ih.2]⟩
    | bind n => simp [Pat.consumes] at h
    | product c ps => simp [Pat.consumes] at h

/-- The names of `a ++ b` are apart from the local of the source. -/
theorem eval_after {f : String → V → Option V} {e : Expr V} {names : List String} {k : Nat} (he : e.replayable = true) (ha : Apart e names k)
    {env env1 : Env V} {bs : List (String × V)} (hb : bs.map (·.1) = names) (hr : Rel k env1 (bindAll env bs)) :
    val W f e env1 = val W f e env := by
  apply val_congr
  intro n hn
  obtain ⟨h1, h2⟩ := ha he n hn
  rw [hr n h2, bindAll_get]
  intro b hbm
  exact h1 b.1 (by rw [← hb]; exact List.mem_map_of_mem hbm)

mutual

/-- The statements of a pattern do what the binding means. -/
theorem expand_same {f : String → V → Option V} (hf : ∀ n v s, W.field n v s = (f n v).map (·, s)) :
    ∀ (p : Pat) (e : Expr V) (k : Nat), p.consumes = true → Apart e p.binds k → ∀ (env : Env V) (s : σ),
      Same k (exec W (expand p e k).1 env s) (declare W p e env s)
  | .bind n, e, k, _, _, env, s => by
    simp only [expand, exec, declare, Pat.components, Option.map_some]
    exact Same.refl k _
  | .ignore, e, k, h, _, _, _ => by simp [Pat.consumes] at h
  | .product c parts, e, k, _, ha, env, s => by
    simp only [expand]
    have hev : ∀ (env : Env V) (s : σ), eval W (if c then Expr.constraint e else e) env s = eval W e env s := by
      intro env s; cases c <;> rfl
    have hrep : (if c then Expr.constraint e else e).replayable = e.replayable := by cases c <;> rfl
    have hdec : declare W (.product c parts) e env s =
        (eval W (if c then Expr.constraint e else e) env s).bind fun r =>
          (parts.components W r.1 r.2.2).map fun b => (bindAll r.2.1 b.1, b.2) := by
      rw [hev]; rfl
    have ha' : Apart (if c then Expr.constraint e else e) parts.binds k := by
      cases c <;> exact ha
    rw [hdec]
    generalize (if c then Expr.constraint e else e) = e' at ha' hev hrep ⊢
    by_cases hu : parts.uses = 0
    · rw [if_pos hu]
      simp only [exec, (no_uses W parts e' k hu).2, Option.map_some]
      exact Same.refl k _
    · rw [if_neg hu]
      by_cases hx : (decide (parts.uses ≤ 1) || e'.replayable) = true
      · rw [if_pos hx]
        cases hr : e'.replayable with
        | true =>
          have hev' := eval_val W hf e' hr env s
          cases hv : val W f e' env with
          | none =>
            rw [hv] at hev'
            rw [parts_fails parts e' k hu hev', hev']
            exact trivial
          | some v =>
            rw [hev', hv]
            exact parts_same hf parts e' k hr ha' env s v hv
        | false =>
          have h1 : parts.uses = 1 := by
            simp only [hr, Bool.or_false, decide_eq_true_eq] at hx; omega
          exact parts_single hf parts e' k h1 hr env s
      · rw [if_neg hx]
        simp only [exec]
        cases hv : eval W e' env s with
        | none => exact trivial
        | some r =>
          obtain ⟨v, env', s'⟩ := r
          simp only [Option.bind_some]
          have hap : Apart (Expr.ident (V := V) (.made k)) parts.binds (k + 1) := by
            intro _ n hn
            simp only [Expr.root, Option.some.injEq] at hn
            subst hn
            exact ⟨fun b _ h => by simp at h, Nat.lt_succ_self k⟩
          have := parts_same hf parts (.ident (.made k)) (k + 1) rfl hap ((.made k, v) :: env') s' v
            (by simp [val, get_cons])
          refine (this.mono (Nat.le_succ k)).trans ?_
          cases hc : parts.components W v s' with
          | none => trivial
          | some b =>
            refine ⟨rfl, Rel.bindAll ?_ b.1⟩
            intro n ho
            rw [get_cons, if_neg]
            rintro rfl
            exact Nat.lt_irrefl k ho

/-- A source which is replayed. -/
theorem parts_same {f : String → V → Option V} (hf : ∀ n v s, W.field n v s = (f n v).map (·, s)) :
    ∀ (ps : Parts) (e : Expr V) (k : Nat), e.replayable = true → Apart e ps.binds k →
      ∀ (env : Env V) (s : σ) (v : V), val W f e env = some v →
      Same k (exec W (expandParts ps e k).1 env s)
        ((ps.components W v s).map fun b => (bindAll env b.1, b.2))
  | .nil, e, k, _, _, env, s, v, _ => Same.refl k _
  | .cons key p rest, e, k, he, ha, env, s, v, hv => by
    simp only [expandParts]
    by_cases hp : p.consumes = true
    · rw [if_pos hp]
      simp only [exec_append]
      have ha1 : Apart (Expr.get key e) p.binds k :=
        ha.mono (fun b hb => List.mem_append_left _ hb) (Nat.le_refl k)
      have h1 := expand_same hf p (.get key e) k hp ha1 env s
      have hev : eval W (.get key e) env s = (W.get key v s).map fun q => (q.1, env, q.2) := by
        simp only [eval, eval_val W hf e he, hv, Option.map_some, Option.bind_some]
      rw [components_cons W key p rest hp]
      unfold declare at h1
      rw [hev] at h1
      cases hg : W.get key v s with
      | none =>
        simp only [hg, Option.map_none, Option.bind_none] at h1 ⊢
        cases hx : exec W (expand p (Expr.get key e) k).1 env s with
        | none => exact trivial
        | some x => rw [hx] at h1; exact h1.elim
      | some q =>
        simp only [hg, Option.map_some, Option.bind_some] at h1 ⊢
        cases hc : p.components W q.1 q.2 with
        | none =>
          simp only [hc, Option.map_none] at h1
          simp only [Option.bind_none, Option.map_none]
          cases hx : exec W (expand p (Expr.get key e) k).1 env s with
          | none => exact trivial
          | some x => rw [hx] at h1; exact h1.elim
        | some a =>
          simp only [hc, Option.map_some] at h1
          simp only [Option.bind_some]
          cases hx : exec W (expand p (Expr.get key e) k).1 env s with
          | none => rw [hx] at h1; exact h1.elim
          | some x =>
            rw [hx] at h1
            obtain ⟨hs, hr⟩ := h1
            simp only at hs hr
            simp only [Option.bind_some]
            have hval : val W f e x.1 = some v := by
              rw [← hv]
              exact eval_after W he (names := p.binds)
                (ha.mono (fun b hb => List.mem_append_left _ hb) (Nat.le_refl k))
                (Pat.components_names W p _ _ a hc) hr
            have hk := expand_counter p (Expr.get key e) k
            have ha2 : Apart e rest.binds (expand p (Expr.get key e) k).2 :=
              ha.mono (fun b hb => List.mem_append_right _ hb) hk
            have h2 := parts_same hf rest e _ he ha2 x.1 x.2 v hval
            refine (h2.mono hk).trans ?_
            rw [hs]
            cases hd : rest.components W v a.2 with
            | none => trivial
            | some b =>
              refine ⟨rfl, ?_⟩
              simp only [bindAll_append]
              exact Rel.bindAll hr b.1
    · rw [if_neg hp]
      cases p with
      | ignore =>
        rw [Parts.components]
        exact parts_same hf rest e k he ha env s v hv
      | bind n => simp [Pat.consumes] at hp
      | product c ps => simp [Pat.consumes] at hp

/-- A pattern whose source fails. -/
theorem expand_fails :
    ∀ (p : Pat) (e : Expr V) (k : Nat), p.consumes = true → ∀ {env : Env V} {s : σ},
      eval W e env s = none → exec W (expand p e k).1 env s = none
  | .bind n, e, k, _, env, s, h => by simp only [expand, exec, h, Option.bind_none]
  | .ignore, e, k, h, _, _, _ => by simp [Pat.consumes] at h
  | .product c parts, e, k, _, env, s, h => by
    simp only [expand]
    have hev : eval W (if c then Expr.constraint e else e) env s = none := by cases c <;> exact h
    generalize (if c then Expr.constraint e else e) = e' at hev ⊢
    by_cases hu : parts.uses = 0
    · rw [if_pos hu]; simp only [exec, hev, Option.bind_none]
    · rw [if_neg hu]
      by_cases hx : (decide (parts.uses ≤ 1) || e'.replayable) = true
      · rw [if_pos hx]
        exact parts_fails parts e' k hu hev
      · rw [if_neg hx]; simp only [exec, hev, Option.bind_none]

/-- Parts of a source which fails. -/
theorem parts_fails :
    ∀ (ps : Parts) (e : Expr V) (k : Nat), ps.uses ≠ 0 → ∀ {env : Env V} {s : σ},
      eval W e env s = none → exec W (expandParts ps e k).1 env s = none
  | .nil, e, k, hu, _, _, _ => by simp [Parts.uses] at hu
  | .cons key p rest, e, k, hu, env, s, hv => by
    simp only [expandParts]
    by_cases hp : p.consumes = true
    · rw [if_pos hp]
      simp only [exec_append]
      have hev : eval W (.get key e) env s = none := by
        simp only [eval, hv, Option.bind_none]
      rw [expand_fails p (.get key e) k hp (env := env) (s := s) hev]; rfl
    · rw [if_neg hp]
      refine parts_fails rest e k ?_ hv
      intro h0
      apply hu
      simp [Parts.uses, hp, h0]

/-- A source which is used once. -/
theorem parts_single {f : String → V → Option V} (hf : ∀ n v s, W.field n v s = (f n v).map (·, s)) :
    ∀ (ps : Parts) (e : Expr V) (k : Nat), ps.uses = 1 → e.replayable = false → ∀ (env : Env V) (s : σ),
      Same k (exec W (expandParts ps e k).1 env s)
        ((eval W e env s).bind fun r => (ps.components W r.1 r.2.2).map fun b => (bindAll r.2.1 b.1, b.2))
  | .nil, e, k, hu, _, _, _ => by simp [Parts.uses] at hu
  | .cons key p rest, e, k, hu, he, env, s => by
    simp only [expandParts]
    by_cases hp : p.consumes = true
    · rw [if_pos hp]
      have h0 : rest.uses = 0 := by simp only [Parts.uses, hp, if_true] at hu; omega
      simp only [exec_append, (no_uses W rest e _ h0).1, exec]
      have ha1 : Apart (Expr.get key e) p.binds k := by
        intro hr; simp [Expr.replayable, he] at hr
      have h1 := expand_same hf p (.get key e) k hp ha1 env s
      have hb : ∀ x : Option (Env V × σ), (x.bind fun r => some (r.1, r.2)) = x := by
        intro x; cases x <;> rfl
      rw [hb]
      refine h1.trans ?_
      simp only [declare, eval]
      cases hv : eval W e env s with
      | none => exact trivial
      | some r =>
        simp only [Option.bind_some, components_cons W key p rest hp]
        cases hg : W.get key r.1 r.2.2 with
        | none => exact trivial
        | some q =>
          simp only [Option.map_some, Option.bind_some]
          cases hc : p.components W q.1 q.2 with
          | none => exact trivial
          | some a =>
            simp only [Option.map_some, Option.bind_some, (no_uses W rest e k h0).2, List.append_nil]
            exact Same.refl k _
    · rw [if_neg hp]
      cases p with
      | ignore =>
        simp only [Parts.components]
        refine parts_single hf rest e k ?_ he env s
        simpa [Parts.uses, Pat.consumes] using hu
      | bind n => simp [Pat.consumes] at hp
      | product c ps => simp [Pat.consumes] at hp

end

/-! ### The property -/

/-- **C57.** The statements a destructuring binding is replaced by do what the binding means: the source is evaluated once,
and each name is bound to its component; they fail exactly if the source or a component fails.  Missing from the full
property: the pattern may not bind the very local the source is a component of, and access to fields must be free of
effects; without these it is violated, see below. -/
theorem C57_destructuring_binds_components_partial (hf : PureFields W) (p : Pat) (e : Expr V) (k k' : Nat)
    (stmts : List (Stmt V)) (hd : desugar p e k = some (stmts, k')) (hp : p ≠ .ignore)
    (huser : ∀ n, e.root = some (.user n) → n ∉ p.binds) (hmade : ∀ j, e.root = some (.made j) → j < k)
    (env : Env V) (s : σ) : Agree (exec W stmts env s) (declare W p e env s) := by
  obtain ⟨f, hf⟩ := hf
  have hc : p.consumes = true := by cases p <;> first | rfl | exact absurd rfl hp
  have he : expand p e k = (stmts, k') := by
    unfold desugar at hd
    by_cases hn : p.binds.Nodup
    · rw [if_pos hn] at hd; exact Option.some.inj hd
    · rw [if_neg hn] at hd; exact absurd hd (by simp)
  have ha : Apart e p.binds k := by
    intro _ n hn
    cases n with
    | user u =>
      refine ⟨fun b hb h => ?_, trivial⟩
      rw [Name.user.injEq] at h
      exact huser u hn (h ▸ hb)
    | made j => exact ⟨fun b _ h => by simp at h, hmade j hn⟩
  have := expand_same W hf p e k hc ha env s
  rw [he] at this
  exact this.agree

/-- **C57**, read for a name: after the statements have run, every name of the pattern has the value of its component, and
every other name of the user has the value it had after the source. -/
theorem C57_each_name_has_its_component_partial (hf : PureFields W) (p : Pat) (e : Expr V) (k k' : Nat)
    (stmts : List (Stmt V)) (hd : desugar p e k = some (stmts, k')) (hp : p ≠ .ignore)
    (huser : ∀ n, e.root = some (.user n) → n ∉ p.binds) (hmade : ∀ j, e.root = some (.made j) → j < k)
    (env env' env1 : Env V) (s s' : σ) (v : V) (bs : List (String × V)) (s1 : σ)
    (hev : eval W e env s = some (v, env1, s1)) (hc : p.components W v s1 = some (bs, s')) :
    exec W stmts env s ≠ none ∧
    (exec W stmts env s = some (env', s') →
      (∀ n w, (n, w) ∈ bs → env'.get (.user n) = some w) ∧
      (∀ n, n ∉ p.binds → env'.get (.user n) = env1.get (.user n))) := by
  have hagree := C57_destructuring_binds_components_partial W hf p e k k' stmts hd hp huser hmade env s
  have hdecl : declare W p e env s = some (bindAll env1 bs, s') := by simp [declare, hev, hc]
  have hnodup : (bs.map (·.1)).Nodup := by
    rw [Pat.components_names W p v s1 (bs, s') hc]
    unfold desugar at hd
    by_cases hn : p.binds.Nodup
    · exact hn
    · rw [if_neg hn] at hd; exact absurd hd (by simp)
  rw [hdecl] at hagree
  constructor
  · intro h0; rw [h0] at hagree; exact hagree
  · intro hx
    rw [hx] at hagree
    obtain ⟨_, hget⟩ := hagree
    constructor
    · intro n w hm
      rw [hget n]
      exact bindAll_mem bs env1 hnodup hm
    · intro n hn
      rw [hget n]
      apply bindAll_get
      intro b hb h
      rw [Name.user.injEq] at h
      apply hn
      rw [← Pat.components_names W p v s1 (bs, s') hc, ← h]
      exact List.mem_map_of_mem hb

/-- **C57** for the patterns of `for` loops, whose source is the local of the current item: no restriction is needed on the
names. -/
theorem C57_loop_patterns_bind_components (hf : PureFields W) (p : Pat) (j k k' : Nat) (hj : j < k)
    (stmts : List (Stmt V)) (hd : desugar p (.ident (.made j)) k = some (stmts, k'))
    (env : Env V) (s : σ) (v : V) (hv : env.get (.made j) = some v) :
    Agree (exec W stmts env s) ((p.components W v s).map fun b => (bindAll env b.1, b.2)) := by
  by_cases hp : p = .ignore
  · subst hp
    have : stmts = [] := by simp [desugar, Pat.binds, expand] at hd; exact hd.1
    subst this
    exact ⟨rfl, fun n => rfl⟩
  · have h := C57_destructuring_binds_components_partial W hf p (.ident (.made j)) k k' stmts hd hp
      (by simp [Expr.root]) (by simp [Expr.root]; exact hj) env s
    simpa [declare, eval, hv] using h

/-! ### Examples and counterexamples -/

/-- Nested pairs of numbers. -/
inductive Tree where
  | num (n : Nat)
  | pair (a b : Tree)
  deriving DecidableEq, Repr

/-- Pairs, no fields; the state counts calls of the only other expression, which returns `((1, 2), 3)`. -/
def plain : World Tree Nat where
  index i v := match i, v with
    | 0, .pair a _ => some a
    | 1, .pair _ b => some b
    | _, _ => none
  field _ _ _ := none
  other _ env s := some (.pair (.pair (.num 1) (.num 2)) (.num 3), env, s + 1)

/-- `(p, q)`. -/
def twoNames (p q : String) : Pat :=
  .product true (.cons (.index 0) (.bind p) (.cons (.index 1) (.bind q) .nil))

/-- The hypotheses are met by `let (a, b) = f();`, which keeps the result of the call in a generated local. -/
example : PureFields plain ∧ (twoNames "a" "b") ≠ .ignore ∧
    desugar (V := Tree) (twoNames "a" "b") (.other 0) 0 =
      some ([.bind (.made 0) (.constraint (.other 0)), .bind (.user "a") (.get (.index 0) (.ident (.made 0))),
        .bind (.user "b") (.get (.index 1) (.ident (.made 0)))], 1) ∧
    (Expr.other (V := Tree) 0).root = none ∧
    exec plain [.bind (.made 0) (.constraint (.other 0)), .bind (.user "a") (.get (.index 0) (.ident (.made 0))),
      .bind (.user "b") (.get (.index 1) (.ident (.made 0)))] [] 0 =
      some ([(.user "b", .num 3), (.user "a", .pair (.num 1) (.num 2)),
        (.made 0, .pair (.pair (.num 1) (.num 2)) (.num 3))], 1) :=
  ⟨⟨fun _ _ => none, fun _ _ _ => rfl⟩, by simp [twoNames], rfl, rfl, rfl⟩

/-- A pattern may bind the name its own source is read from:
`let p = ((1, 2), 3); let (p, q) = p;` gives `q` the value 2 instead of 3. -/
theorem C57_shadowed_source_violated :
    ∃ (stmts : List (Stmt Tree)) (k : Nat) (env : Env Tree),
      desugar (twoNames "p" "q") (.ident (.user "p")) 0 = some (stmts, k) ∧
      ¬Agree (exec plain stmts env 0) (declare plain (twoNames "p" "q") (.ident (.user "p")) env 0) := by
  refine ⟨_, _, [(.user "p", .pair (.pair (.num 1) (.num 2)) (.num 3))], rfl, ?_⟩
  intro h
  have := h.2 "q"
  revert this
  decide

/-- A field whose access counts itself. -/
def counting : World Tree Nat where
  index := plain.index
  field _ v s := some (v, s + 1)
  other _ _ _ := none

/-- The source `x.f` of `let (a, b) = x.f;` is evaluated twice, and so is the code of a custom projection `f`. -/
theorem C57_projection_runs_twice_violated :
    ∃ (stmts : List (Stmt Tree)) (k : Nat) (env : Env Tree),
      desugar (twoNames "a" "b") (.get (.field "f") (.ident (.user "x"))) 0 = some (stmts, k) ∧
      ¬Agree (exec counting stmts env 0)
        (declare counting (twoNames "a" "b") (.get (.field "f") (.ident (.user "x"))) env 0) := by
  refine ⟨_, _, [(.user "x", .pair (.num 1) (.num 2))], rfl, ?_⟩
  intro h
  have := h.1
  revert this
  decide

end Ferlium.Destructure
