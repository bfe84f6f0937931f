import Verif.Model.Unify

/-!
Unification with a number of steps, to compute concrete cases.
-/
namespace Ferlium.Unify

/-- Shape of the tests after normalisation. -/
def decideWith (pick : Nat → Nat → Bool) (tab : Table) (args : Table → Head → Args → Args → Option Result) : Ty → Ty → Option Result
  | .never, _ => some (.ok tab)
  | _, .never => some (.ok tab)
  | .var v, .var w => unifyVariables pick tab v w
  | .var v, t => unifyVariable tab v t
  | t, .var v => unifyVariable tab v t
  | .node h as, .node h' as' =>
    if h ≠ h' then some (.error .mismatch)
    else if checksLength h && as.length != as'.length then some (.error .mismatch)
    else if assertsLength h && as.length != as'.length then none
    else args tab h as as'

mutual

/-- `normalize` in at most so many steps. -/
def normalizeIn (tab : Table) : Nat → Ty → Option Ty
  | 0, _ => none
  | _ + 1, .never => some .never
  | n + 1, .var v =>
    match tab[v]? with
    | none => none
    | some none => some (.var v)
    | some (some t) => normalizeIn tab n t
  | n + 1, .node h args => normalizeArgsIn tab n args >>= fun args => some (.node h args)

/-- `normalizeArgs` in at most so many steps. -/
def normalizeArgsIn (tab : Table) : Nat → Args → Option Args
  | 0, _ => none
  | _ + 1, .nil => some .nil
  | n + 1, .cons name t rest => normalizeIn tab n t >>= fun t => normalizeArgsIn tab n rest >>= fun rest => some (.cons name t rest)

end

mutual

/-- `unify` in at most so many steps. -/
def unifyIn (pick : Nat → Nat → Bool) : Nat → Table → Ty → Ty → Option Result
  | 0, _, _, _ => none
  | n + 1, tab, current, expected =>
    if current = expected then some (.ok tab)
    else
      normalizeIn tab n current >>= fun current => normalizeIn tab n expected >>= fun expected =>
        if current = expected then some (.ok tab) else decideWith pick tab (unifyArgsIn pick n) current expected

/-- `unifyArgs` in at most so many steps. -/
def unifyArgsIn (pick : Nat → Nat → Bool) : Nat → Table → Head → Args → Args → Option Result
  | 0, _, _, _, _ => none
  | n + 1, tab, h, .cons name t rest, .cons name' t' rest' =>
    if checksNames h && name != name' then some (.error .mismatch)
    else
      (if swaps h rest then unifyIn pick n tab t' t else unifyIn pick n tab t t') >>= fun r =>
        match r with
        | .error e => some (.error e)
        | .ok tab => unifyArgsIn pick n tab h rest rest'
  | _ + 1, tab, _, _, _ => some (.ok tab)

end

/-- `solve` in at most so many steps. -/
def solveIn (pick : Nat → Nat → Bool) (n : Nat) (tab : Table) : List (Ty × Ty) → Option Result
  | [] => some (.ok tab)
  | (current, expected) :: rest =>
    match unifyIn pick n tab current expected with
    | none => none
    | some (.error e) => some (.error e)
    | some (.ok tab) => solveIn pick n tab rest

theorem normalizeIn_eq (tab : Table) : ∀ n, (∀ t u, normalizeIn tab n t = some u → normalize tab t = some u) ∧
    ∀ a b, normalizeArgsIn tab n a = some b → normalizeArgs tab a = some b
  | 0 => ⟨fun t u h => by simp [normalizeIn] at h, fun t u h => by simp [normalizeArgsIn] at h⟩
  | n + 1 => by
    obtain ⟨i1, i2⟩ := normalizeIn_eq tab n
    constructor
    · intro t u h
      cases t with
      | never => rw [normalize]; simpa [normalizeIn] using h
      | var v =>
        rw [normalize]
        rw [normalizeIn] at h
        split at h
        · cases h
        · next hv => rw [hv]; exact h
        · next hv => rw [hv]; exact i1 _ _ h
      | node hd args =>
        rw [normalize]
        simp only [normalizeIn, Option.bind_eq_bind, Option.bind_eq_some_iff] at h ⊢
        obtain ⟨a, ha, h⟩ := h
        exact ⟨a, i2 _ _ ha, h⟩
    · intro a b h
      cases a with
      | nil => rw [normalizeArgs]; simpa [normalizeArgsIn] using h
      | cons name t rest =>
        rw [normalizeArgs]
        simp only [normalizeArgsIn, Option.bind_eq_bind, Option.bind_eq_some_iff] at h ⊢
        obtain ⟨t', ht, r', hr, h⟩ := h
        exact ⟨t', i1 _ _ ht, r', i2 _ _ hr, h⟩

theorem unifyIn_eq (pick : Nat → Nat → Bool) : ∀ n, (∀ tab c e r, unifyIn pick n tab c e = some r → unify pick tab c e = some r) ∧
    ∀ tab h a b r, unifyArgsIn pick n tab h a b = some r → unifyArgs pick tab h a b = some r
  | 0 => ⟨fun _ _ _ _ h => by simp [unifyIn] at h, fun _ _ _ _ _ h => by simp [unifyArgsIn] at h⟩
  | n + 1 => by
    obtain ⟨i1, i2⟩ := unifyIn_eq pick n
    constructor
    · intro tab c e r h
      rw [unify]
      rw [unifyIn] at h
      split
      · next hc => rw [if_pos hc] at h; exact h
      · next hc =>
        rw [if_neg hc] at h
        simp only [Option.bind_eq_bind, Option.bind_eq_some_iff] at h ⊢
        obtain ⟨c', hc', e', he', h⟩ := h
        refine ⟨c', (normalizeIn_eq tab n).1 _ _ hc', e', (normalizeIn_eq tab n).1 _ _ he', ?_⟩
        split
        · next hq => rw [if_pos hq] at h; exact h
        · next hq =>
          rw [if_neg hq] at h
          cases c' with
          | never => exact h
          | var v => cases e' <;> exact h
          | node hd as =>
            cases e' with
            | never => exact h
            | var v => exact h
            | node hd' as' =>
              simp only [decideWith] at h
              dsimp only
              split
              · next h1 => rw [if_pos h1] at h; exact h
              · next h1 =>
                rw [if_neg h1] at h
                split
                · next h2 => rw [if_pos h2] at h; exact h
                · next h2 =>
                  rw [if_neg h2] at h
                  split
                  · next h3 => rw [if_pos h3] at h; exact h
                  · next h3 => rw [if_neg h3] at h; exact i2 _ _ _ _ _ h
    · intro tab h a b r hr
      cases a with
      | nil => rw [unifyArgs.eq_def]; simpa [unifyArgsIn] using hr
      | cons name t rest =>
        cases b with
        | nil => rw [unifyArgs.eq_def]; simpa [unifyArgsIn] using hr
        | cons name' t' rest' =>
          rw [unifyArgs.eq_def]
          rw [unifyArgsIn] at hr
          dsimp only
          split
          · next hc => rw [if_pos hc] at hr; exact hr
          · next hc =>
            rw [if_neg hc] at hr
            simp only [Option.bind_eq_bind, Option.bind_eq_some_iff] at hr ⊢
            obtain ⟨x, hx, hr⟩ := hr
            refine ⟨x, ?_, ?_⟩
            · split
              · next hs => rw [if_pos hs] at hx; exact i1 _ _ _ _ hx
              · next hs => rw [if_neg hs] at hx; exact i1 _ _ _ _ hx
            · cases x with
              | error => exact hr
              | ok tab => exact i2 _ _ _ _ _ hr

theorem solveIn_eq {pick : Nat → Nat → Bool} {n : Nat} : ∀ {eqs : List (Ty × Ty)} {tab : Table} {r : Result},
    solveIn pick n tab eqs = some r → solve pick tab eqs = some r
  | [], _, _, h => h
  | (c, e) :: rest, tab, r, h => by
    rw [solveIn] at h
    rw [solve]
    cases hu : unifyIn pick n tab c e with
    | none => rw [hu] at h; cases h
    | some x =>
      rw [(unifyIn_eq pick n).1 _ _ _ _ hu]
      rw [hu] at h
      cases x with
      | error => exact h
      | ok tab => exact solveIn_eq h

end Ferlium.Unify
