import Verif.Proofs.InlineSim

/-!
# The simulation
-/

namespace Ferlium.Inline

variable {P V C W E : Type} {sem : Sem P V C W E} {tab tab' : Nat → Option Fn} {g callee : Nat}
  {F body F' : Fn} {site : Site} {call : Op} {s : Splice} {calm : Nat → Prop}

theorem tab_isSome (S : Setup tab tab' g callee F body F' site call s calm) (f : Nat) :
    (tab' f).isSome = (tab f).isSome := by
  rw [S.htab]
  by_cases h : f = g
  · subst h; simp [S.hF]
  · rw [Function.update_of_ne h]

theorem directCallee_tab (S : Setup tab tab' g callee F body F' site call s calm) (k : Kind)
    (vs : List (View P V)) : directCallee tab' k vs = directCallee tab k vs := by
  unfold directCallee
  split
  · rw [tab_isSome S]
  · rfl

theorem site_op (S : Setup tab tab' g callee F body F' site call s calm) {b j : Nat} {blk : Block}
    {op : Op} (hb : F.blocks[b]? = some blk) (ho : blk.ops[j]? = some op)
    (hs : AtSite F site b j) : op = call ∧ site = .op b j := by
  have hc := S.glue.call_at
  obtain ⟨rfl, rfl⟩ := hs
  cases site with
  | op B i =>
    obtain ⟨blk0, h0, hi⟩ := hc
    simp only [Site.block, siteIndex] at hb ho ⊢
    rw [h0] at hb
    cases hb
    rw [hi] at ho
    cases ho
    simp
  | term B =>
    exfalso
    simp only [Site.block] at hb
    have := getElem?_lt ho
    simp [siteIndex, hb] at this

theorem site_term (S : Setup tab tab' g callee F body F' site call s calm) {b : Nat} {blk : Block}
    (hb : F.blocks[b]? = some blk) (hs : AtSite F site b blk.ops.length) :
    ∃ n e, blk.term = .invoke call n e ∧ s.normal = n ∧ s.error = some e := by
  obtain ⟨rfl, hj⟩ := hs
  cases site with
  | op B i =>
    exfalso
    obtain ⟨blk0, h0, hi, -⟩ := S.glue.at_op B i rfl
    simp only [Site.block] at hb
    rw [h0] at hb
    cases hb
    simp only [siteIndex] at hj
    omega
  | term B =>
    obtain ⟨blk0, n, e, h0, ht, hn, he, -⟩ := S.glue.at_term B rfl
    simp only [Site.block] at hb
    rw [h0] at hb
    cases hb
    exact ⟨n, e, ht, hn, he⟩

/-- Entering the copy at the call. -/
theorem enter (S : Setup tab tab' g callee F body F' site call s calm) {b j b' j' d d' : Nat}
    (hp : Pos F site b j b' j') (hs : AtSite F site b j) {st st' : Frame P V E}
    (hsame : Same F.next st st') (hcalm : calm b → st.pending = none ∧ st.second = none)
    (hd : d' ≤ d) {m : Mem C W} {vs args : List (View P V)}
    (hvs : call.operands.mapM st.view = some vs) (hva : vs = .fn callee :: args)
    (hpass : args.all View.passable) {r0 : Out P V C W E}
    (hrun : CopyRuns sem tab' F body F' s (d + 1) ⟨fun _ => none, args, none, none⟩ 0 0 m r0) :
    Ends sem tab' F' s F.next d' m.env.length st
      (fun R => Run sem tab' (.code d' F' st' b' j' m) R) r0 := by
  obtain ⟨rfl, rfl, blk', hb, ho, hl, ht⟩ := S.glue.at_site hp hs
  have hargs : s.args.mapM st.view = some args := by
    obtain ⟨os, hos⟩ := S.head
    rw [S.glue.args, hos]
    rw [hos, List.mapM_cons, hva] at hvs
    simp only [Option.pure_def, Option.bind_eq_bind, Option.bind_eq_some_iff] at hvs
    obtain ⟨w, hw, ws, hws, he⟩ := hvs
    simp only [Option.some.injEq, List.cons.injEq] at he
    rw [← he.2]
    simpa using hws
  have hin : Inside F.next s.ren (errorFlow body) m.env.length
      ⟨fun _ => none, args, none, none⟩ st (st'.set F.next (.mark m.env.length)) := by
    refine ⟨⟨?_, ?_, ?_⟩, hsame.params, ?_, ?_⟩
    · exact (Frame.set_same hsame _).agree
    · simp [Frame.set]
    · intro r r' _ v hv
      exact absurd hv (by simp)
    · intro hf
      have := hcalm (by
        rw [hs.1]
        exact S.calm_site hf)
      exact ⟨this.1, this.2, by simp [Frame.set, hsame.pending, this.1],
        by simp [Frame.set, hsame.second, this.2]⟩
    · intro _
      exact ⟨rfl, rfl, hsame.pending, hsame.second⟩
  have := hrun st (st'.set F.next (.mark m.env.length)) d' m.env.length (by omega) hargs hpass hin
  refine this.mono fun R hR => ?_
  refine .save hb ho rfl rfl ?_
  rw [← hl]
  exact .goto hb ht hR

theorem kept (S : Setup tab tab' g callee F body F' site call s calm) {job : Job P V C W E}
    {r : Out P V C W E} (h : Run sem tab job r) :
    Kept sem tab' callee F body F' site s calm job r := by
  induction h with
  | @func d f args m G r hG hl hrun ih =>
    intro hr
    have hr' : r ≠ .deep := fun h => hr (by rw [h]; rfl)
    obtain ⟨h1, h2, h3⟩ := ih hr'
    refine ⟨fun d' hd => ?_, fun hf => ?_⟩
    · by_cases hfg : f = g
      · subst hfg
        rw [S.hF] at hG
        cases hG
        have hF' : tab' f = some F' := by rw [S.htab]; simp
        have hpar : F'.params = F.params := S.glue.params
        refine .func hF' (by rw [hl, hpar]) ?_
        exact h2 rfl _ (d' + 1) 0 0 (by omega) (Pos.start F site 0)
          ⟨fun _ _ => rfl, rfl, rfl, rfl⟩ (fun _ => ⟨rfl, rfl⟩)
      · refine .func (by rw [S.htab, Function.update_of_ne hfg, hG]) hl (h1 _ (by omega))
    · subst hf
      rw [S.hbody] at hG
      cases hG
      exact ⟨r, rfl, hl, h3 rfl⟩
  | progOk => exact fun _ _ _ => .progOk
  | progFail => exact fun _ _ _ => .progFail
  | progPoison => exact fun _ _ _ => .progPoison
  | callOk _ _ ih1 ih2 =>
    exact fun hr d' hd => .callOk ((ih1 (by simp)).1 d' hd) (ih2 hr d' hd)
  | callErr _ _ ih1 ih2 =>
    exact fun hr d' hd => .callErr ((ih1 (by simp)).1 d' hd) (ih2 hr d' hd)
  | callPoison _ ih => exact fun hr d' hd => .callPoison ((ih (by simp)).1 d' hd)
  | callDeep => exact fun hr => absurd rfl hr
  | @direct d data f args m r hs hpass hrun ih =>
    intro hr
    have hr' : r ≠ .deep := fun h => hr (by rw [h]; rfl)
    obtain ⟨h1, h2⟩ := ih hr'
    refine ⟨fun d' hd => .direct (by rw [tab_isSome S]; exact hs) hpass (h1 d' hd), ?_⟩
    intro args' _ hv
    simp only [List.cons.injEq, View.fn.injEq] at hv
    obtain ⟨rfl, rfl⟩ := hv
    obtain ⟨r0, e0, hl, hc⟩ := h2 rfl
    exact ⟨hpass, r0, by rw [e0], hl, hc⟩
  | @plain d k data vs m r hk hdir hrun ih =>
    intro hr
    refine ⟨fun d' hd => .plain hk (by rw [directCallee_tab S]; exact hdir) (ih hr d' hd), ?_⟩
    intro args hk' hv
    subst hk' hv
    simp [directCallee, S.hbody] at hdir
  | @save d G st b j m blk op reg r hb ho hk hreg hrun ih =>
    intro hr
    obtain ⟨h1, h2, h3⟩ := ih hr
    refine ⟨fun d' hd => .save hb ho hk hreg (h1 d' hd), ?_, ?_⟩
    · rintro rfl st' d' b' j' hd hp hsame hcalm
      have hns : ¬ AtSite G site b j := fun hs => by
        have := (site_op S hb ho hs).1
        rw [this, S.kind] at hk
        exact absurd hk (by simp)
      obtain ⟨blk', hb', ho', hp'⟩ := S.glue.op_step hp hns hb ho
      exact .save hb' ho' hk hreg (h2 rfl _ d' b' (j' + 1) hd hp' (hsame.set _ _) hcalm)
    · rintro rfl st st' d' n hd hv hpass hin
      obtain ⟨blk', hc, hb'⟩ := S.glue.copied b blk hb
      obtain ⟨op', hop, ho'⟩ := copyBlock_op hc ho
      obtain ⟨hkind, -, -, hres⟩ := copyOp_parts hop
      rw [hreg] at hres
      simp only [copyResult, Option.map_eq_some_iff] at hres
      obtain ⟨r', hr', he⟩ := hres
      have := h3 rfl st _ d' n hd hv hpass (hin.set S hr' (.mark m.env.length))
      exact this.mono fun R hR => .save hb' ho' (by rw [hkind, hk]) he.symm hR
  | @restore d G st b j m blk op o n r hb ho hk hops hview hrun ih =>
    intro hr
    obtain ⟨h1, h2, h3⟩ := ih hr
    refine ⟨fun d' hd => .restore hb ho hk hops hview (h1 d' hd), ?_, ?_⟩
    · rintro rfl st' d' b' j' hd hp hsame hcalm
      have hns : ¬ AtSite G site b j := fun hs => by
        have := (site_op S hb ho hs).1
        rw [this, S.kind] at hk
        exact absurd hk (by simp)
      obtain ⟨blk', hb', ho', hp'⟩ := S.glue.op_step hp hns hb ho
      have hbelow := (S.names.op hb ho).1 o (by simp [hops])
      exact .restore hb' ho' hk hops (by rw [hsame.view hbelow, hview])
        (h2 rfl _ d' b' (j' + 1) hd hp' hsame hcalm)
    · rintro rfl st1 st' d' n' hd hv hpass hin
      obtain ⟨blk', hc, hb'⟩ := S.glue.copied b blk hb
      obtain ⟨op', hop, ho'⟩ := copyBlock_op hc ho
      obtain ⟨hkind, -, hos, -⟩ := copyOp_parts hop
      rw [hops, List.mapM_cons] at hos
      simp only [Option.pure_def, Option.bind_eq_bind, Option.bind_eq_some_iff, List.mapM_nil] at hos
      obtain ⟨o', hoo, ys, hys, he⟩ := hos
      simp only [Option.some.injEq] at hys he
      subst hys
      have := h3 rfl st1 st' d' n' hd hv hpass hin
      exact this.mono fun R hR =>
        .restore hb' ho' (by rw [hkind, hk]) he.symm (hin.view S hv hoo hview) hR
  | @depthOk d G st b j m blk op r hb ho hk hlim hrun ih =>
    intro hr
    obtain ⟨h1, h2, h3⟩ := ih hr
    refine ⟨fun d' hd => .depthOk hb ho hk (by omega) (h1 d' hd), ?_, ?_⟩
    · rintro rfl st' d' b' j' hd hp hsame hcalm
      have hns : ¬ AtSite G site b j := fun hs => by
        have := (site_op S hb ho hs).1
        rw [this, S.kind] at hk
        exact absurd hk (by simp)
      obtain ⟨blk', hb', ho', hp'⟩ := S.glue.op_step hp hns hb ho
      exact .depthOk hb' ho' hk (by omega) (h2 rfl _ d' b' (j' + 1) hd hp' hsame hcalm)
    · rintro rfl st1 st' d' n' hd hv hpass hin
      obtain ⟨blk', hc, hb'⟩ := S.glue.copied b blk hb
      obtain ⟨op', hop, ho'⟩ := copyBlock_op hc ho
      obtain ⟨hkind, -⟩ := copyOp_parts hop
      have := h3 rfl st1 st' d' n' hd hv hpass hin
      exact this.mono fun R hR => .depthOk hb' ho' (by rw [hkind, hk]) (by omega) hR
  | depthStop => exact fun hr => absurd rfl hr
  | @opOk d G st b j m blk op vs backs res m' r hb ho hvs hex hrun ihe ih =>
    intro hr
    obtain ⟨h1, h2, h3⟩ := ih hr
    obtain ⟨e1, e2⟩ := ihe (by simp)
    refine ⟨fun d' hd => .opOk hb ho hvs (e1 d' hd) (h1 d' hd), ?_, ?_⟩
    · rintro rfl st' d' b' j' hd hp hsame hcalm
      by_cases hs : AtSite G site b j
      · obtain ⟨rfl, hsite⟩ := site_op S hb ho hs
        obtain ⟨args, hargs⟩ : ∃ args, vs = .fn callee :: args := by
          obtain ⟨os, hos⟩ := S.head
          rw [hos, List.mapM_cons] at hvs
          simp only [Option.pure_def, Option.bind_eq_bind, Option.bind_eq_some_iff] at hvs
          obtain ⟨w, hw, ws, -, he⟩ := hvs
          simp only [Frame.view, Option.some.injEq] at hw he
          exact ⟨ws, by rw [← he, ← hw]⟩
        obtain ⟨hpass, r0, hr0, -, hcr⟩ := e2 args S.kind hargs
        have hends := enter S hp hs hsame hcalm hd hvs hargs hpass hcr
        cases r0 with
        | done m1 =>
          simp only [Out.close, Out.asOp, Out.ok.injEq] at hr0
          obtain ⟨rfl, rfl, rfl⟩ := hr0
          refine hends r fun st'' hst => ?_
          obtain ⟨blk0, h0, hi, hn, -⟩ := S.glue.at_op b j hsite
          have hpos : Pos G site b (j + 1) G.blocks.length 0 := by
            have := Pos.after (F := G) hsite (Nat.lt_succ_self j)
            simpa using this
          rw [hn]
          have := h2 rfl st'' d' _ _ hd hpos (by rw [Frame.after_nil]; exact hst)
            (by rw [Frame.after_nil]; exact hcalm)
          exact this
        | err => simp [Out.close, Out.asOp] at hr0
        | poison => simp [Out.close, Out.asOp] at hr0
        | deep => simp [Out.close, Out.asOp] at hr0
        | ok => exact hends.elim
        | fail => exact hends.elim
      · obtain ⟨blk', hb', ho', hp'⟩ := S.glue.op_step hp hs hb ho
        have hbelow := (S.names.op hb ho).1
        refine .opOk hb' ho' (by rw [view_mapM_agree hsame.agree hsame.params _ hbelow, hvs])
          (e1 d' hd) ?_
        exact h2 rfl _ d' b' (j' + 1) hd hp' (hsame.after hbelow _ _) hcalm
    · rintro rfl st1 st' d' n' hd hv hpass hin
      obtain ⟨blk', hc, hb'⟩ := S.glue.copied b blk hb
      obtain ⟨op', hop, ho'⟩ := copyBlock_op hc ho
      obtain ⟨hkind, hdata, -⟩ := copyOp_parts hop
      have := h3 rfl st1 _ d' n' hd hv hpass (hin.after S hv hpass hop backs res)
      refine this.mono fun R hR => .opOk hb' ho' (hin.views S hv hop hvs) ?_ hR
      rw [hkind, hdata]
      exact e1 d' (by omega)
  | @opPoison d G st b j m blk op vs e w hb ho hvs hex ihe =>
    intro hr
    obtain ⟨e1, e2⟩ := ihe (by simp)
    refine ⟨fun d' hd => .opPoison hb ho hvs (e1 d' hd), ?_, ?_⟩
    · rintro rfl st' d' b' j' hd hp hsame hcalm
      by_cases hs : AtSite G site b j
      · obtain ⟨rfl, hsite⟩ := site_op S hb ho hs
        obtain ⟨args, hargs⟩ : ∃ args, vs = .fn callee :: args := by
          obtain ⟨os, hos⟩ := S.head
          rw [hos, List.mapM_cons] at hvs
          simp only [Option.pure_def, Option.bind_eq_bind, Option.bind_eq_some_iff] at hvs
          obtain ⟨w, hw, ws, -, he⟩ := hvs
          simp only [Frame.view, Option.some.injEq] at hw he
          exact ⟨ws, by rw [← he, ← hw]⟩
        obtain ⟨hpass, r0, hr0, -, hcr⟩ := e2 args S.kind hargs
        have hends := enter S hp hs hsame hcalm hd hvs hargs hpass hcr
        cases r0 with
        | poison e0 w0 =>
          simp only [Out.close, Out.asOp, Out.poison.injEq] at hr0
          obtain ⟨rfl, rfl⟩ := hr0
          exact hends
        | err => simp [Out.close, Out.asOp] at hr0
        | done => simp [Out.close, Out.asOp] at hr0
        | deep => simp [Out.close, Out.asOp] at hr0
        | ok => exact hends.elim
        | fail => exact hends.elim
      · obtain ⟨blk', hb', ho', hp'⟩ := S.glue.op_step hp hs hb ho
        have hbelow := (S.names.op hb ho).1
        rw [← hsame.poison]
        exact .opPoison hb' ho' (by rw [view_mapM_agree hsame.agree hsame.params _ hbelow, hvs])
          (e1 d' hd)
    · rintro rfl st1 st' d' n' hd hv hpass hin
      obtain ⟨blk', hc, hb'⟩ := S.glue.copied b blk hb
      obtain ⟨op', hop, ho'⟩ := copyBlock_op hc ho
      obtain ⟨hkind, hdata, -⟩ := copyOp_parts hop
      simp only [Ends]
      rw [← hin.poison]
      refine .opPoison hb' ho' (hin.views S hv hop hvs) ?_
      rw [hkind, hdata]
      exact e1 d' (by omega)
  | opDeep => exact fun hr => absurd rfl hr
  | @goto d G st b m blk t r hb ht hrun ih =>
    intro hr
    obtain ⟨h1, h2, h3⟩ := ih hr
    refine ⟨fun d' hd => .goto hb ht (h1 d' hd), ?_, ?_⟩
    · rintro rfl st' d' b' j' hd hp hsame hcalm
      have hns : ¬ AtSite G site b blk.ops.length := fun hs => by
        obtain ⟨n, e, h, -⟩ := site_term S hb hs
        rw [ht] at h
        exact absurd h (by simp)
      obtain ⟨blk', hb', rfl, ht'⟩ := S.glue.term_step hp hns hb
      refine .goto hb' (by rw [ht', ht]) (h2 rfl _ d' t 0 hd (Pos.start _ _ _) hsame fun hc => ?_)
      exact hcalm (S.calm_succ b blk t hb (by simp [ht, Term.succs]) hc)
    · rintro rfl st1 st' d' n' hd hv hpass hin
      obtain ⟨blk', hc, hb'⟩ := S.glue.copied b blk hb
      obtain ⟨t', ht', hbt, hlen, -⟩ := copyBlock_term hc
      rw [ht] at ht'
      simp only [copyTerm, Option.some.injEq] at ht'
      subst ht'
      have := h3 rfl st1 st' d' n' hd hv hpass hin
      refine this.mono fun R hR => ?_
      simp only [List.length_nil, Nat.add_zero] at hlen
      rw [← hlen]
      exact .goto hb' hbt hR
  | @condBr d G st b m blk c x y v t r hb ht hview htest hrun ih =>
    intro hr
    obtain ⟨h1, h2, h3⟩ := ih hr
    refine ⟨fun d' hd => .condBr hb ht hview htest (h1 d' hd), ?_, ?_⟩
    · rintro rfl st' d' b' j' hd hp hsame hcalm
      have hns : ¬ AtSite G site b blk.ops.length := fun hs => by
        obtain ⟨n, e, h, -⟩ := site_term S hb hs
        rw [ht] at h
        exact absurd h (by simp)
      obtain ⟨blk', hb', rfl, ht'⟩ := S.glue.term_step hp hns hb
      have hbelow : c.below G.next := (S.names blk (List.mem_of_getElem? hb)).2 c x y ht
      refine .condBr hb' (by rw [ht', ht]) (by rw [hsame.view hbelow, hview]) htest
        (h2 rfl _ d' _ 0 hd (Pos.start _ _ _) hsame fun hc => ?_)
      refine hcalm (S.calm_succ b blk _ hb ?_ hc)
      simp only [ht, Term.succs]
      cases t <;> simp
    · rintro rfl st1 st' d' n' hd hv hpass hin
      obtain ⟨blk', hc, hb'⟩ := S.glue.copied b blk hb
      obtain ⟨t', ht', hbt, hlen, -⟩ := copyBlock_term hc
      rw [ht] at ht'
      simp only [copyTerm, Option.map_eq_some_iff] at ht'
      obtain ⟨c', hcc, rfl⟩ := ht'
      have := h3 rfl st1 st' d' n' hd hv hpass hin
      refine this.mono fun R hR => ?_
      simp only [List.length_nil, Nat.add_zero] at hlen
      rw [← hlen]
      refine .condBr hb' hbt (hin.view S hv hcc hview) htest ?_
      cases t <;> exact hR
  | @invokeOk d G st b m blk op n e vs backs res m' r hb ht hvs hex hrun ihe ih =>
    intro hr
    obtain ⟨h1, h2, h3⟩ := ih hr
    obtain ⟨e1, e2⟩ := ihe (by simp)
    refine ⟨fun d' hd => .invokeOk hb ht hvs (e1 d' hd) (h1 d' hd), ?_, ?_⟩
    · rintro rfl st' d' b' j' hd hp hsame hcalm
      have hcalm' : calm n → st.pending = none ∧ st.second = none := fun hc =>
        hcalm (S.calm_succ b blk n hb (by simp [ht, Term.succs]) hc)
      by_cases hs : AtSite G site b blk.ops.length
      · obtain ⟨n1, e1', ht1, hn, he⟩ := site_term S hb hs
        rw [ht] at ht1
        cases ht1
        obtain ⟨args, hargs⟩ : ∃ args, vs = .fn callee :: args := by
          obtain ⟨os, hos⟩ := S.head
          rw [hos, List.mapM_cons] at hvs
          simp only [Option.pure_def, Option.bind_eq_bind, Option.bind_eq_some_iff] at hvs
          obtain ⟨w, hw, ws, -, he⟩ := hvs
          simp only [Frame.view, Option.some.injEq] at hw he
          exact ⟨ws, by rw [← he, ← hw]⟩
        obtain ⟨hpass, r0, hr0, -, hcr⟩ := e2 args S.kind hargs
        have hends := enter S hp hs hsame hcalm hd hvs hargs hpass hcr
        cases r0 with
        | done m1 =>
          simp only [Out.close, Out.asOp, Out.ok.injEq] at hr0
          obtain ⟨rfl, rfl, rfl⟩ := hr0
          refine hends r fun st'' hst => ?_
          rw [hn]
          exact h2 rfl st'' d' _ _ hd (Pos.start _ _ _) (by rw [Frame.after_nil]; exact hst)
            (by rw [Frame.after_nil]; exact hcalm')
        | err => simp [Out.close, Out.asOp] at hr0
        | poison => simp [Out.close, Out.asOp] at hr0
        | deep => simp [Out.close, Out.asOp] at hr0
        | ok => exact hends.elim
        | fail => exact hends.elim
      · obtain ⟨blk', hb', rfl, ht'⟩ := S.glue.term_step hp hs hb
        have hbelow := (S.names.invoked hb ht).1
        refine .invokeOk hb' (by rw [ht', ht])
          (by rw [view_mapM_agree hsame.agree hsame.params _ hbelow, hvs]) (e1 d' hd) ?_
        exact h2 rfl _ d' n 0 hd (Pos.start _ _ _) (hsame.after hbelow _ _) hcalm'
    · rintro rfl st1 st' d' n' hd hv hpass hin
      obtain ⟨blk', hc, hb'⟩ := S.glue.copied b blk hb
      obtain ⟨t', ht', hbt, hlen, -⟩ := copyBlock_term hc
      rw [ht] at ht'
      simp only [copyTerm, Option.map_eq_some_iff] at ht'
      obtain ⟨op', hop, rfl⟩ := ht'
      obtain ⟨hkind, hdata, -⟩ := copyOp_parts hop
      have := h3 rfl st1 _ d' n' hd hv hpass (hin.after S hv hpass hop backs res)
      refine this.mono fun R hR => ?_
      simp only [List.length_nil, Nat.add_zero] at hlen
      rw [← hlen]
      refine .invokeOk hb' hbt (hin.views S hv hop hvs) ?_ hR
      rw [hkind, hdata]
      exact e1 d' (by omega)
  | @invokeFail d G st b m blk op n e vs backs err m' st2 r hb ht hvs hex hfail hrun ihe ih =>
    intro hr
    obtain ⟨h1, h2, h3⟩ := ih hr
    obtain ⟨e1, e2⟩ := ihe (by simp)
    refine ⟨fun d' hd => .invokeFail hb ht hvs (e1 d' hd) hfail (h1 d' hd), ?_, ?_⟩
    · rintro rfl st' d' b' j' hd hp hsame hcalm
      have hcalm' : calm e → st2.pending = none ∧ st2.second = none := fun hc =>
        absurd hc (S.calm_error b blk op n e hb ht)
      by_cases hs : AtSite G site b blk.ops.length
      · obtain ⟨n1, e1', ht1, hn, he⟩ := site_term S hb hs
        rw [ht] at ht1
        cases ht1
        obtain ⟨args, hargs⟩ : ∃ args, vs = .fn callee :: args := by
          obtain ⟨os, hos⟩ := S.head
          rw [hos, List.mapM_cons] at hvs
          simp only [Option.pure_def, Option.bind_eq_bind, Option.bind_eq_some_iff] at hvs
          obtain ⟨w, hw, ws, -, he⟩ := hvs
          simp only [Frame.view, Option.some.injEq] at hw he
          exact ⟨ws, by rw [← he, ← hw]⟩
        obtain ⟨hpass, r0, hr0, -, hcr⟩ := e2 args S.kind hargs
        have hends := enter S hp hs hsame hcalm hd hvs hargs hpass hcr
        cases r0 with
        | err e0 m1 =>
          simp only [Out.close, Out.asOp, Out.fail.injEq] at hr0
          obtain ⟨rfl, rfl, rfl⟩ := hr0
          obtain ⟨hp0, hs0, hgo⟩ := hends
          refine hgo r _ he fun st'' hst => ?_
          rw [Frame.after_nil] at hfail
          have hst2 : st2 = { st with pending := some err } := by
            unfold Frame.fail at hfail
            rw [hp0] at hfail
            simp only [Option.some.injEq] at hfail
            exact hfail.symm
          rw [hst2] at h2
          exact h2 rfl st'' d' _ _ hd (Pos.start _ _ _) hst (by rw [← hst2]; exact hcalm')
        | done => simp [Out.close, Out.asOp] at hr0
        | poison => simp [Out.close, Out.asOp] at hr0
        | deep => simp [Out.close, Out.asOp] at hr0
        | ok => exact hends.elim
        | fail => exact hends.elim
      · obtain ⟨blk', hb', rfl, ht'⟩ := S.glue.term_step hp hs hb
        have hbelow := (S.names.invoked hb ht).1
        obtain ⟨st3, hf3, hsame3⟩ := (hsame.after hbelow backs none).fail hfail
        refine .invokeFail hb' (by rw [ht', ht])
          (by rw [view_mapM_agree hsame.agree hsame.params _ hbelow, hvs]) (e1 d' hd) hf3 ?_
        exact h2 rfl _ d' e 0 hd (Pos.start _ _ _) hsame3 hcalm'
    · rintro rfl st1 st' d' n' hd hv hpass hin
      obtain ⟨blk', hc, hb'⟩ := S.glue.copied b blk hb
      obtain ⟨t', ht', hbt, hlen, -⟩ := copyBlock_term hc
      rw [ht] at ht'
      simp only [copyTerm, Option.map_eq_some_iff] at ht'
      obtain ⟨op', hop, rfl⟩ := ht'
      obtain ⟨hkind, hdata, -⟩ := copyOp_parts hop
      have hflow : errorFlow G = true := errorFlow_of hb (by simp [ht, Term.errorFlow])
      have hin1 := hin.after S hv hpass hop backs none
      obtain ⟨f1, f2, f3, f4⟩ := hin1.flows hflow
      obtain ⟨st3, hf3, hin3, hpar⟩ : ∃ st3, (st'.after op' backs none).fail err = some st3 ∧
          Inside F.next s.ren (errorFlow G) n' st2 st1 st3 ∧ st2.params = st.params := by
        unfold Frame.fail at hfail ⊢
        rw [f3, f4]
        split at hfail
        · cases hfail
          exact ⟨_, rfl, ⟨hin1.copied, hin1.params, fun _ => ⟨f1, f2, rfl, rfl⟩,
            fun h => by rw [hflow] at h; exact absurd h (by simp)⟩, rfl⟩
        · cases hfail
          exact ⟨_, rfl, ⟨hin1.copied, hin1.params, fun _ => ⟨f1, f2, rfl, rfl⟩,
            fun h => by rw [hflow] at h; exact absurd h (by simp)⟩, rfl⟩
        · exact absurd hfail (by simp)
      have := h3 rfl st1 st3 d' n' hd (by rw [hpar]; exact hv) (by rw [hpar]; exact hpass) hin3
      refine this.mono fun R hR => ?_
      simp only [List.length_nil, Nat.add_zero] at hlen
      rw [← hlen]
      refine .invokeFail hb' hbt (hin.views S hv hop hvs) ?_ hf3 hR
      rw [hkind, hdata]
      exact e1 d' (by omega)
  | @invokePoison d G st b m blk op n e vs err w hb ht hvs hex ihe =>
    intro hr
    obtain ⟨e1, e2⟩ := ihe (by simp)
    refine ⟨fun d' hd => .invokePoison hb ht hvs (e1 d' hd), ?_, ?_⟩
    · rintro rfl st' d' b' j' hd hp hsame hcalm
      by_cases hs : AtSite G site b blk.ops.length
      · obtain ⟨n1, e1', ht1, hn, he⟩ := site_term S hb hs
        rw [ht] at ht1
        cases ht1
        obtain ⟨args, hargs⟩ : ∃ args, vs = .fn callee :: args := by
          obtain ⟨os, hos⟩ := S.head
          rw [hos, List.mapM_cons] at hvs
          simp only [Option.pure_def, Option.bind_eq_bind, Option.bind_eq_some_iff] at hvs
          obtain ⟨w, hw, ws, -, he⟩ := hvs
          simp only [Frame.view, Option.some.injEq] at hw he
          exact ⟨ws, by rw [← he, ← hw]⟩
        obtain ⟨hpass, r0, hr0, -, hcr⟩ := e2 args S.kind hargs
        have hends := enter S hp hs hsame hcalm hd hvs hargs hpass hcr
        cases r0 with
        | poison e0 w0 =>
          simp only [Out.close, Out.asOp, Out.poison.injEq] at hr0
          obtain ⟨rfl, rfl⟩ := hr0
          exact hends
        | err => simp [Out.close, Out.asOp] at hr0
        | done => simp [Out.close, Out.asOp] at hr0
        | deep => simp [Out.close, Out.asOp] at hr0
        | ok => exact hends.elim
        | fail => exact hends.elim
      · obtain ⟨blk', hb', rfl, ht'⟩ := S.glue.term_step hp hs hb
        have hbelow := (S.names.invoked hb ht).1
        rw [← hsame.poison]
        exact .invokePoison hb' (by rw [ht', ht])
          (by rw [view_mapM_agree hsame.agree hsame.params _ hbelow, hvs]) (e1 d' hd)
    · rintro rfl st1 st' d' n' hd hv hpass hin
      obtain ⟨blk', hc, hb'⟩ := S.glue.copied b blk hb
      obtain ⟨t', ht', hbt, hlen, -⟩ := copyBlock_term hc
      rw [ht] at ht'
      simp only [copyTerm, Option.map_eq_some_iff] at ht'
      obtain ⟨op', hop, rfl⟩ := ht'
      obtain ⟨hkind, hdata, -⟩ := copyOp_parts hop
      simp only [Ends]
      rw [← hin.poison]
      simp only [List.length_nil, Nat.add_zero] at hlen
      rw [← hlen]
      refine .invokePoison hb' hbt (hin.views S hv hop hvs) ?_
      rw [hkind, hdata]
      exact e1 d' (by omega)
  | invokeDeep => exact fun hr => absurd rfl hr
  | @ret d G st b m blk hb ht hp0 hs0 =>
    intro hr
    refine ⟨fun d' hd => .ret hb ht hp0 hs0, ?_, ?_⟩
    · rintro rfl st' d' b' j' hd hp hsame hcalm
      have hns : ¬ AtSite G site b blk.ops.length := fun hs => by
        obtain ⟨n, e, h, -⟩ := site_term S hb hs
        rw [ht] at h
        exact absurd h (by simp)
      obtain ⟨blk', hb', rfl, ht'⟩ := S.glue.term_step hp hns hb
      exact .ret hb' (by rw [ht', ht]) (by rw [hsame.pending, hp0]) (by rw [hsame.second, hs0])
    · rintro rfl st1 st' d' n' hd hv hpass hin
      obtain ⟨blk', hc, hb'⟩ := S.glue.copied b blk hb
      obtain ⟨t', ht', hbt, hlen, hops⟩ := copyBlock_term hc
      rw [ht] at ht'
      simp only [copyTerm, Option.some.injEq] at ht'
      subst ht'
      intro R hR
      have h0 := hops 0
      simp only [Nat.add_zero, List.getElem?_cons_zero] at h0
      refine .restore hb' h0 rfl rfl (n := n') ?_ ?_
      · simp only [Frame.view, S.glue.marker]
        exact hin.copied.marker
      · simp only [List.length_singleton] at hlen
        rw [← hlen]
        exact .goto hb' hbt (hR st' (Same.of_inside hin hp0 hs0))
  | @propagate d G st b m blk e hb ht hp0 hs0 =>
    intro hr
    refine ⟨fun d' hd => .propagate hb ht hp0 hs0, ?_, ?_⟩
    · rintro rfl st' d' b' j' hd hp hsame hcalm
      have hns : ¬ AtSite G site b blk.ops.length := fun hs => by
        obtain ⟨n, e, h, -⟩ := site_term S hb hs
        rw [ht] at h
        exact absurd h (by simp)
      obtain ⟨blk', hb', rfl, ht'⟩ := S.glue.term_step hp hns hb
      exact .propagate hb' (by rw [ht', ht]) (by rw [hsame.pending, hp0])
        (by rw [hsame.second, hs0])
    · rintro rfl st1 st' d' n' hd hv hpass hin
      obtain ⟨blk', hc, hb'⟩ := S.glue.copied b blk hb
      obtain ⟨t', ht', hbt, hlen, hops⟩ := copyBlock_term hc
      rw [ht] at ht'
      simp only [copyTerm, Option.map_eq_some_iff] at ht'
      obtain ⟨t0, ht0, rfl⟩ := ht'
      have hflow : errorFlow G = true := errorFlow_of hb (by simp [ht, Term.errorFlow])
      obtain ⟨f1, f2, f3, f4⟩ := hin.flows hflow
      refine ⟨f1, f2, fun R t hst hR => ?_⟩
      rw [ht0] at hst
      cases hst
      have h0 := hops 0
      simp only [Nat.add_zero, List.getElem?_cons_zero] at h0
      refine .restore hb' h0 rfl rfl (n := n') ?_ ?_
      · simp only [Frame.view, S.glue.marker]
        exact hin.copied.marker
      · simp only [List.length_singleton] at hlen
        rw [← hlen]
        refine .goto hb' hbt (hR st' ⟨hin.copied.agree, hin.params, ?_, ?_⟩)
        · rw [f3, hp0]
        · rw [f4, hs0, f2]
  | @failure d G st b m blk e e' hb ht hp0 hs0 =>
    intro hr
    refine ⟨fun d' hd => .failure hb ht hp0 hs0, ?_, ?_⟩
    · rintro rfl st' d' b' j' hd hp hsame hcalm
      have hns : ¬ AtSite G site b blk.ops.length := fun hs => by
        obtain ⟨n, e, h, -⟩ := site_term S hb hs
        rw [ht] at h
        exact absurd h (by simp)
      obtain ⟨blk', hb', rfl, ht'⟩ := S.glue.term_step hp hns hb
      exact .failure hb' (by rw [ht', ht]) (by rw [hsame.pending, hp0])
        (by rw [hsame.second, hs0])
    · rintro rfl st1 st' d' n' hd hv hpass hin
      obtain ⟨blk', hc, hb'⟩ := S.glue.copied b blk hb
      obtain ⟨t', ht', hbt, hlen, hops⟩ := copyBlock_term hc
      rw [ht] at ht'
      simp only [copyTerm, Option.some.injEq] at ht'
      subst ht'
      have hflow : errorFlow G = true := errorFlow_of hb (by simp [ht, Term.errorFlow])
      obtain ⟨f1, f2, f3, f4⟩ := hin.flows hflow
      simp only [Ends, Frame.poison, f1]
      simp only [List.length_nil, Nat.add_zero] at hlen
      rw [← hlen]
      exact .failure hb' hbt (by rw [f3, hp0]) (by rw [f4, hs0])

end Ferlium.Inline
