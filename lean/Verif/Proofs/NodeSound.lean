import Verif.Proofs.NodeLock

/-! Starts, and whole lives of nodes in a network (used for C43, C44). -/

set_option linter.unusedSimpArgs false
set_option linter.unusedVariables false
set_option linter.unusedSectionVars false
set_option linter.unnecessarySeqFocus false

namespace Overlord
open M Spec

variable {T : Type} [ContentCodec T] [DecidableEq T]

theorem smrOk_init {B : Certs} : SmrOk B Smr.init := by intro l hl; cases hl

/-- A machine that has heard nothing. -/
theorem mem_quiet {B : Certs} {n : NodeSys T} (h1 : n.sys.smr = Smr.init) (h2 : n.stQ = []) (h3 : n.sys.trigQ = [])
    (h4 : n.st.consensusPower = true → n.st.height = 0 → votesOf n.log = []) : Memory B n := by
  refine ⟨by rw [h1]; exact smrOk_init, by rw [h2]; simp, by rw [h3]; simp, by rw [h2]; simp, fun hp heq => ?_⟩
  have hz : n.st.height = 0 := by rw [← heq, h1]; rfl
  have hv := h4 hp hz
  rw [hv, h2]
  refine ⟨⟨0, 0, 0⟩, by simp, ?_⟩
  intro x r hd
  obtain ⟨_, v, hv', _⟩ := hd
  rw [hv] at hv'; cases hv'

theorem lock_start {B : Certs} {addr : Address} {n : NodeSys T} {p : StartParams} {e : Env T} {cut : Option Nat} {res : World T}
    (hg : Good (obs n.log)) (hdisk : DiskOk B (obs n.log)) (hobs : ∀ o ∈ obs n.log, ObsGen B o)
    (ok : StartOk addr n (.start p e cut))
    (o : StartOut e (State.new addr p.initHeight p.interval p.list) res)
    (hup : (NodeSys.started addr p n.log res).down = false) : Memory B (NodeSys.started addr p n.log res) := by
  have hkn := startOk_known hg ok
  have hvs : votesOf res.log = [] := start_votes o
  have hlog : (NodeSys.started addr p n.log res).log = n.log ++ res.log := by unfold NodeSys.started; rw [drain_log]; rfl
  have hst : (NodeSys.started addr p n.log res).st = res.st := by unfold NodeSys.started; rw [drain_st]
  have hvo : votesOf (NodeSys.started addr p n.log res).log = votesOf n.log := by rw [hlog, votesOf_append, hvs, List.append_nil]
  have quiet : trigsOf res.log = [] → NodeSys.started addr p n.log res =
        { (NodeSys.fresh addr p n.log).absorb res.log with
          sys := { (NodeSys.fresh addr p n.log : NodeSys T).sys with trigQ := [] }, st := res.st, down := false } := by
    intro hl; unfold NodeSys.started; dsimp only; rw [hl]; rfl
  have hnp := new_power (T := T) addr p
  rcases hkn with ⟨k1, k2, k3⟩ | ⟨k1, k2, k3, k4⟩ | ⟨k1, w, b, k2, k3, k4, k5, k6⟩
  · -- not a validator
    rw [k1] at hnp
    have hres : res = ⟨State.new addr p.initHeight p.interval p.list, []⟩ := by
      cases o with
      | idle hw => exact hw
      | _ => simp_all
    have := quiet (by rw [hres]; rfl)
    refine mem_quiet (by rw [this]; rfl) (by rw [this]; rfl) (by rw [this]) ?_
    rw [hst, hres, hnp]; simp
  · -- nothing saved
    rw [k1] at hnp
    cases o with
    | idle hw h =>
      have := quiet (by rw [hw]; rfl)
      refine mem_quiet (by rw [this]; rfl) (by rw [this]; rfl) (by rw [this]) ?_
      rw [hvo]; intro _ _; exact k3
    | fresh hp hl hh hw =>
      subst hw
      obtain ⟨evt, hdw⟩ := drain_wal ({ (NodeSys.fresh addr p n.log).absorb [.trigger (walTrig { height := (State.new addr p.initHeight p.interval p.list : State T).height, round := (State.new addr p.initHeight p.interval p.list : State T).round, step := .propose, polc := none })] with
        sys := { (NodeSys.fresh addr p n.log : NodeSys T).sys with trigQ := [] }, st := State.new addr p.initHeight p.interval p.list, down := false } : NodeSys T)
        { height := (State.new addr p.initHeight p.interval p.list : State T).height, round := (State.new addr p.initHeight p.interval p.list : State T).round, step := .propose, polc := none } (by simp)
      have he : NodeSys.started addr p n.log ⟨State.new addr p.initHeight p.interval p.list, [.trigger (walTrig { height := (State.new addr p.initHeight p.interval p.list : State T).height, round := (State.new addr p.initHeight p.interval p.list : State T).round, step := .propose, polc := none })]⟩ = _ := hdw
      have e1 : (NodeSys.started addr p n.log ⟨(State.new addr p.initHeight p.interval p.list : State T), [.trigger (walTrig { height := (State.new addr p.initHeight p.interval p.list : State T).height, round := (State.new addr p.initHeight p.interval p.list : State T).round, step := .propose, polc := none })]⟩).stQ = [] := by rw [he]; rfl
      have e2 : (NodeSys.started addr p n.log ⟨(State.new addr p.initHeight p.interval p.list : State T), [.trigger (walTrig { height := (State.new addr p.initHeight p.interval p.list : State T).height, round := (State.new addr p.initHeight p.interval p.list : State T).round, step := .propose, polc := none })]⟩).sys.trigQ = [] := by rw [he]
      refine ⟨?_, by rw [e1]; simp, by rw [e2]; simp, by rw [e1]; simp, fun hp heq => ?_⟩
      · rw [he]; intro l hl; cases hl
      · rw [hvo, k3, e1]
        refine ⟨⟨0, 0, 0⟩, by simp, ?_⟩
        intro x r hd
        obtain ⟨_, v, hv', _⟩ := hd
        rw [hvo, k3] at hv'; cases hv'
    | noLeader b rec x hp hl => rw [k2] at hl; cases hl
    | noLock b rec x hp hl => rw [k2] at hl; cases hl
    | commit b rec x lock hp hl => rw [k2] at hl; cases hl
    | brake b rec x hp hl => rw [k2] at hl; cases hl
    | resume b rec x hp hl => rw [k2] at hl; cases hl
  · -- a record
    have hlast : (obsSaves (obs n.log)).getLast? = some w := by
      simp only [StartOk, k1, if_true] at ok
      unfold lastSaved at ok
      rw [savedOf_obs] at ok
      split at ok
      · rw [k2] at ok; cases ok
      · rename_i w' hw'
        obtain ⟨_, b', e1, e2⟩ := ok
        rw [k2] at e1; cases e1; rw [k3] at e2; cases e2; exact hw'
    have hrec : RecGen B w := by
      have hm : w ∈ obsSaves (obs n.log) := List.mem_of_getLast? hlast
      have : Obs.save w ∈ obs n.log := by
        unfold obsSaves at hm
        obtain ⟨x, hx, he⟩ := List.mem_filterMap.1 hm
        cases x <;> simp at he
        subst he; exact hx
      exact (hobs _ this).1
    cases start_to k1 k2 k3 k4 o hup with
    | told evt hpos hc heq =>
      have e1 : (NodeSys.started addr p n.log res).stQ = [] := by rw [heq]; rfl
      have e2 : (NodeSys.started addr p n.log res).sys.trigQ = [] := by rw [heq]
      have e3 : (NodeSys.started addr p n.log res).sys.smr = (Smr.init.handleWal w.intoSmrBase).next := by rw [heq]
      have e4 : (Smr.init.handleWal w.intoSmrBase).next =
          ⟨w.height, w.round, w.step, match w.lock.map WalLock.toLock with
            | some l => l.hash
            | none => [], w.lock.map WalLock.toLock⟩ := by
        unfold Smr.handleWal; dsimp only; split <;> rfl
      refine ⟨?_, by rw [e1]; simp, by rw [e2]; simp, by rw [e1]; simp, fun hp hh => ?_⟩
      · rw [e3, e4]
        intro l hl
        simp only at hl ⊢
        rw [hl]
        obtain ⟨wl, hwl, rfl⟩ := Option.map_eq_some_iff.1 hl
        obtain ⟨r1, r2, r3, _⟩ := hrec wl hwl
        obtain ⟨r4, r5⟩ := r3 hc
        refine ⟨rfl, ?_⟩
        simp only [QcIn, r4, r2, r5] at r1
        exact r1
      · rw [hvo, e1, hst, hpos.1]
        refine ⟨recPos w, k6, ?_⟩
        rintro x r ⟨hx, v, hv, hve⟩
        rw [hvo] at hv
        rw [hst, hpos.1] at hve
        refine ⟨hx, ?_, ?_⟩
        · have := hdisk w hlast hc v (by rw [← votesOf_obs]; exact hv) x r hx hve
          have e5 : (Smr.init.handleWal w.intoSmrBase).next.lockRound = w.lock.map WalLock.lockRound := by
            rw [e4]; simp only [Smr.lockRound, Option.map_map]; rfl
          rw [e3, e5]; exact this
        · rw [e3, e4]
          have := k6 v hv
          simp only [votePos, hve, recPos, Pos.le] at this
          simp only; omega
    | stuck hpos heq =>
      refine mem_quiet (by rw [heq]; rfl) (by rw [heq]; rfl) (by rw [heq]) ?_
      intro _ h0
      rw [hst, hpos.1] at h0
      exact absurd h0 k4
    | moved hc hlt ht =>
      rcases ht with ht | ⟨st, ht, hsh⟩
      · have := quiet ht
        refine mem_quiet (by rw [this]; rfl) (by rw [this]; rfl) (by rw [this]) ?_
        intro _ h0
        rw [hst] at h0; omega
      · generalize htt : stTrigger (.newHeight st) [] none INIT_ROUND res.st.height = t at ht
        have htype : t.triggerType = .newHeight st := by rw [← htt]; rfl
        have hnw : NotWal t := by unfold NotWal; rw [htype]; simp
        have htc : TrigCert B t := trigCert_other (by rw [htype]; simp) (by rw [htype]; simp) (by rw [htype]; simp)
        obtain ⟨s1, s2⟩ := smr_ok hnw htc (smrOk_init (B := B))
        obtain ⟨g1, g2, g3⟩ := smr_heights (m := Smr.init) hnw
        have e : (NodeSys.started addr p n.log res).sys.smr = (Smr.init.onTrigger t).next ∧
            (NodeSys.started addr p n.log res).stQ = (Smr.init.onTrigger t).outs.filterMap Out.toState ∧
            (NodeSys.started addr p n.log res).sys.trigQ = [] := by
          unfold NodeSys.started at hup ⊢
          rw [ht] at hup ⊢
          simp only [NodeSys.drain] at hup ⊢
          split at hup
          · exact ⟨rfl, by simp [NodeSys.fresh, NodeSys.absorb, TimerSys.boot], rfl⟩
          · exact ⟨rfl, by simp [NodeSys.fresh, NodeSys.absorb, TimerSys.boot], rfl⟩
          · simp at hup
          · simp at hup
        obtain ⟨e1, e2, e3⟩ := e
        refine ⟨by rw [e1]; exact s1, by rw [e2]; exact s2, by rw [e3]; simp, ?_, ?_⟩
        · intro k r lr hev
          rw [e2] at hev; rw [e1]
          exact Nat.le_of_eq (brake_height hnw hev)
        · intro hp heq
          have hlow : ∀ v ∈ votesOf n.log, v.vote.height < res.st.height := by
            intro v hv
            have := k6 v hv
            simp only [Pos.le, votePos, recPos] at this
            omega
          have hD : ∀ x r, ¬ Done (NodeSys.started addr p n.log res) x r := by
            rintro x r ⟨_, v, hv, he⟩
            rw [hvo] at hv
            have := hlow v hv
            rw [he, hst] at this
            simp only at this
            omega
          rw [hst, e1] at heq
          rw [hvo, hst, e1, e2]
          rcases g3 with g3 | ⟨st', g3, g4, g5, f, ni, nc, g6⟩
          · rw [g3] at heq
            have : Smr.init.height = 0 := rfl
            omega
          · refine ⟨⟨res.st.height, 0, 0⟩, fun v hv => ?_, ?_⟩
            · have := hlow v hv
              simp only [votePos, Pos.le]; omega
            · rw [g5] at heq
              simp only at heq
              rw [g6]
              simp only [Out.toState, List.filterMap_cons, List.filterMap_nil, LChain, heq, if_true]
              exact ⟨fun x r hd => absurd hd (hD x r), fun x r hd => absurd hd (hD x r)⟩

theorem start_disk {B : Certs} {addr : Address} {n : NodeSys T} {p : StartParams} {e : Env T} {cut : Option Nat} {res : World T}
    (hg : Good (obs n.log)) (hdisk : DiskOk B (obs n.log)) (hobs : ∀ o ∈ obs n.log, ObsGen B o)
    (ok : StartOk addr n (.start p e cut))
    (o : StartOut e (State.new addr p.initHeight p.interval p.list) res) : DiskAll B (obs n.log) (obs res.log) := by
  have hkn := startOk_known hg ok
  have hnp := new_power (T := T) addr p
  have known : ∀ (w : WalInfo T) b, (State.new addr p.initHeight p.interval p.list : State T).consensusPower = true →
      e.walLoad = some (some b) → decWalInfo b = .ok w →
      (∀ v ∈ votesOf n.log, Pos.le (votePos v) (recPos w)) ∧ (obsSaves (obs n.log)).getLast? = some w ∧ RecGen B w := by
    intro w b hp hl hw
    rw [hnp] at hp
    rcases hkn with ⟨h, _⟩ | ⟨_, h, _⟩ | ⟨_, w', b', h1, h2, h3, h4, h5⟩
    · rw [hp] at h; cases h
    · rw [hl] at h; cases h
    · rw [hl] at h1; cases h1; rw [hw] at h2; cases h2
      have hlast : (obsSaves (obs n.log)).getLast? = some w := by
        simp only [StartOk, hp, if_true] at ok
        unfold lastSaved at ok
        rw [savedOf_obs] at ok
        split at ok
        · rw [hl] at ok; cases ok
        · rename_i w' hw'
          obtain ⟨_, b', e1, e2⟩ := ok
          rw [hl] at e1; cases e1; rw [hw] at e2; cases e2; exact hw'
      refine ⟨h5, hlast, ?_⟩
      have hm : w ∈ obsSaves (obs n.log) := List.mem_of_getLast? hlast
      have : Obs.save w ∈ obs n.log := by
        unfold obsSaves at hm
        obtain ⟨x, hx, he⟩ := List.mem_filterMap.1 hm
        cases x <;> simp at he
        subst he; exact hx
      exact (hobs _ this).1
  have hst0 : ∀ H, Store (PropAt B H) (VoteAt (fun _ => True) H) (QcAt B H) (State.new addr p.initHeight p.interval p.list : State T) :=
    fun _ => Store.new ..
  cases o with
  | idle hw h => subst hw; exact diskAll_nil hdisk
  | fresh hp hl hh hw => subst hw; exact diskAll_nil hdisk
  | noLeader b rec x hp hl hdec hx hw => subst hw; exact diskAll_nil hdisk
  | noLock b rec pr hp hl hdec hx hst hlk hw => subst hw; exact diskAll_nil hdisk
  | commit b rec pr lock hp hl hdec hx hst hlk o =>
    obtain ⟨h3, _, _⟩ := known rec b hp hl hdec
    obtain ⟨r1, r2, r3, r4⟩ := restored_pos (State.new addr p.initHeight p.interval p.list : State T) rec pr
    refine commit_disk hdisk (fun v hv => ?_) o
    rw [← votesOf_obs] at hv
    have := h3 v hv
    rw [r1]
    simp only [Pos.le, votePos, recPos] at this
    omega
  | brake b rec pr hp hl hdec hx hst w1 o hw =>
    obtain ⟨h3, h4, h5⟩ := known rec b hp hl hdec
    obtain ⟨r1, r2, r3, r4⟩ := restored_pos (State.new addr p.initHeight p.interval p.list : State T) rec pr
    have hob : obs res.log = obs w1.log := by
      rcases hw with rfl | rfl
      · rfl
      · dsimp only; rw [obs_append]; simp [obs, obsOf, walTrig, stTrigger, releasedVote]
    rw [hob]
    rcases o.out with ho | ⟨lk, hlk, ho⟩
    · rw [ho]; exact diskAll_nil hdisk
    · rw [ho]
      have hgs : GStore (fun _ => True) B ((State.new addr p.initHeight p.interval p.list : State T).restored rec pr) :=
        restored_gen (hst0 _) h5
      obtain ⟨_, hlr⟩ := walLock_gen (step := .brake) (r := 0) (u := .precommitQC (default)) hgs hlk (by simp)
      refine diskAll_cons hdisk (diskAll_nil (disk_save fun _ v hv x r hx' he => ?_))
      simp only [walRec, r1] at he
      have := hdisk rec h4 (by rw [hst]; simp) v hv x r hx' he
      show Covers B ((State.new addr p.initHeight p.interval p.list : State T).restored rec pr).height x r (lk.map WalLock.lockRound)
      rw [hlr, r1]; exact this
  | resume b rec pr hp hl hdec hx hst hsb hw => subst hw; exact diskAll_nil hdisk

/-! ## One step of a node -/

theorem micro_address {e : Env T} {i : Input T} {s s' : State T} {eff : List (Effect T)} (hm : Micro e i s eff s') :
    s'.address = s.address := by
  cases hm <;> rfl

/-- Everything that is known about a correct node. -/
structure Sound (lists : Nat → List Node) (V : SignedVote → Prop) (B : Certs) (addr : Address) (n : NodeSys T) : Prop where
  inv : NodeInv n
  disk : DiskOk B (obs n.log)
  obs : ∀ o ∈ obs n.log, ObsGen B o
  up : n.down = false → Memory B n ∧ StGen lists V B n.st ∧ n.st.address = addr

theorem Sound.mono {lists : Nat → List Node} {V V' : SignedVote → Prop} {B B' : Certs} {addr : Address} {n : NodeSys T}
    (hV : ∀ v, V v → V' v) (hB : ∀ ty k r x, B ty k r x → B' ty k r x) (h : Sound lists V B addr n) : Sound lists V' B' addr n :=
  ⟨h.inv, h.disk.mono hB, fun o ho => (h.obs o ho).mono hB, fun hd =>
    let ⟨a, b, c⟩ := h.up hd; ⟨a.mono hB, b.mono hV hB, c⟩⟩

theorem sound_new {lists : Nat → List Node} {V : SignedVote → Prop} {B : Certs} {addr : Address} :
    Sound lists V B addr (NodeSys.new addr : NodeSys T) := by
  refine ⟨nodeInv_new addr, ?_, ?_, ?_⟩
  · intro w hw; simp [NodeSys.new, NodeSys.fresh, obs, obsSaves] at hw
  · intro o ho; simp [NodeSys.new, NodeSys.fresh, Overlord.obs] at ho
  · simp [NodeSys.new, NodeSys.fresh]

/-- What is asked of a step. -/
def StepOk (lists : Nat → List Node) (addr : Address) (n : NodeSys T) (a : NAct T) : Prop :=
  InSync n a ∧ RoundSmall n a ∧ StartOk addr n a ∧ AnswersOk n a ∧ SavesWork n a ∧ GivenLists lists addr n a

/-- What is asked of the input and the trigger. -/
def InputOk (lists : Nat → List Node) (V : SignedVote → Prop) (B : Certs) (n : NodeSys T) : NAct T → Prop
  | .arm .verified _ _ => ∀ m q, n.verifiedQ = m :: q → m.isRichStatus = true ∨ n.st.consensusPower = true ∧ m.getHeight? = some n.st.height → MsgGen lists V B m
  | .smr => ∀ t q, n.sys.trigQ = t :: q → NoSelf B n.sys.smr t
  | _ => True

theorem sound_step {lists : Nat → List Node} {V : SignedVote → Prop} {B : Certs} {addr : Address} {n n' : NodeSys T} {a : NAct T}
    (hgl : GoodLists lists) (hu : Uniq B) (h : Sound lists V B addr n) (ok : StepOk lists addr n a) (hin : InputOk lists V B n a)
    (ha : n.act addr a = some n') :
    ∃ l, n'.log = n.log ++ l ∧ (votesOf l = [] ∨ ∃ sv, votesOf l = [sv] ∧ sv.voter = addr ∧ Justified B (Mine n) sv.vote) ∧
      ∀ V' B', (∀ v, V v → V' v) → (∀ ty k r x, B ty k r x → B' ty k r x) → Counts lists V' B' → (∀ sv ∈ votesOf l, V' sv) →
        Sound lists V' B' addr n' := by
  obtain ⟨ok1, ok2, ok3, ok4, ok5, ok6⟩ := ok
  have hinv : NodeInv n' := node_inv h.inv ⟨ok1, ok2, ok3⟩ ha
  have up : (∀ p e c, a ≠ .start p e c) → a ≠ .crash → n.down = false := by
    intro h1 h2
    cases hd : n.down with
    | false => rfl
    | true =>
      cases a with
      | start p e c => exact absurd rfl (h1 p e c)
      | crash => exact absurd rfl h2
      | _ => simp [NodeSys.act, hd] at ha
  -- steps that only touch the queues
  have frame : n'.log = n.log → n'.st = n.st → (n'.down = false → n.down = false) → (n'.down = false → Memory B n') →
      ∃ l, n'.log = n.log ++ l ∧ (votesOf l = [] ∨ ∃ sv, votesOf l = [sv] ∧ sv.voter = addr ∧ Justified B (Mine n) sv.vote) ∧
      ∀ V' B', (∀ v, V v → V' v) → (∀ ty k r x, B ty k r x → B' ty k r x) → Counts lists V' B' → (∀ sv ∈ votesOf l, V' sv) →
        Sound lists V' B' addr n' := by
    intro h1 h2 h3 h4
    refine ⟨[], by rw [h1]; simp, .inl rfl, fun V' B' hV hB _ _ => Sound.mono hV hB ⟨hinv, by rw [h1]; exact h.disk, by rw [h1]; exact h.obs,
      fun hd => ⟨h4 hd, by rw [h2]; exact (h.up (h3 hd)).2⟩⟩⟩
  cases a with
  | crash =>
    simp only [NodeSys.act, Option.some.injEq] at ha
    subst ha
    exact frame rfl rfl (by simp) (by simp)
  | start p e cut =>
    obtain ⟨hd, hc⟩ := start_act ha
    have o := start_out e (State.new addr p.initHeight p.interval p.list : State T)
    have hdsk := start_disk h.inv.good h.disk h.obs ok3 o
    have hsl : (p.list.map Node.address).contains addr = true → StartList (T := T) lists B e p := by
      intro hli
      have hgi := ok6.2 hli
      simp only [StartOk, hli, if_true] at ok3
      split at ok3
      · rename_i hn
        rw [hn] at hgi
        exact .inl ⟨ok3, hgi⟩
      · rename_i w hw
        rw [hw] at hgi
        obtain ⟨_, b, e1, e2⟩ := ok3
        refine .inr ⟨w, b, e1, e2, hgi, ?_⟩
        have hm : w ∈ obsSaves (Overlord.obs n.log) := by
          unfold lastSaved at hw; rw [savedOf_obs] at hw; exact List.mem_of_getLast? hw
        have : Obs.save w ∈ Overlord.obs n.log := by
          unfold obsSaves at hm
          obtain ⟨x, hx, he⟩ := List.mem_filterMap.1 hm
          cases x <;> simp at he
          subst he; exact hx
        exact h.obs _ this
    obtain ⟨⟨g1, g2⟩, g3⟩ := start_gen (V := V) hsl ok5 ok4 ok6.1
    have hv := start_votes o
    have hmem := fun hup => lock_start h.inv.good h.disk h.obs ok3 o hup
    have haddr : (runArm .start e ⟨(State.new addr p.initHeight p.interval p.list : State T), []⟩).2.st.address = addr :=
      arm_state_inv (e := e) (i := .start) (P := fun s => s.address = addr) rfl fun _ _ _ h hm => (micro_address hm).trans h
    generalize hrw : runArm .start e ⟨(State.new addr p.initHeight p.interval p.list : State T), []⟩ = res at *
    refine ⟨cutTo cut res.2.log, ?_, .inl ?_, fun V' B' hV hB hcn hvs => Sound.mono hV hB ⟨hinv, ?_, ?_, ?_⟩⟩
    · rcases hc with ⟨_, h2⟩ | ⟨_, h2, h3, _⟩
      · exact h2
      · rw [h2]; exact h3
    · refine List.eq_nil_iff_forall_not_mem.2 fun v hvv => ?_
      have := votesOf_cut hvv
      rw [hv] at this; cases this
    · obtain ⟨k', hk'⟩ := obs_cut cut res.2.log
      rcases hc with ⟨_, h2⟩ | ⟨_, h2, h3, _⟩
      · rw [h2, obs_append, hk']; exact hdsk k'
      · rw [h3, obs_append]; exact hdsk.all
    · obtain ⟨k', hk'⟩ := obs_cut cut res.2.log
      intro o ho
      rcases hc with ⟨_, h2⟩ | ⟨_, h2, h3, _⟩
      · rw [h2, obs_append, hk'] at ho
        rcases List.mem_append.1 ho with ho | ho
        · exact h.obs o ho
        · exact g3 o (List.mem_of_mem_take ho)
      · rw [h3, obs_append] at ho
        rcases List.mem_append.1 ho with ho | ho
        · exact h.obs o ho
        · exact g3 o ho
    · intro hf
      rcases hc with ⟨h1, _⟩ | ⟨_, h2, h3, h4⟩
      · rw [h1] at hf; cases hf
      · rw [h4] at hf ⊢
        have hst : (NodeSys.started addr p n.log res.2).st = res.2.st := by unfold NodeSys.started; rw [drain_st]
        exact ⟨hmem hf, by rw [hst]; exact g1, by rw [hst]; exact haddr⟩
  | arm x e cut =>
    have hd := up (by simp) (by simp)
    obtain ⟨m1, m2, m3⟩ := h.up hd
    simp only [NodeSys.act, hd, Bool.false_eq_true, if_false] at ha
    split at ha
    · cases ha
    · rename_i i n1 ht
      cases ha
      have hlv := h.inv.live hd
      obtain ⟨hi, e1, e2, e3, e4⟩ := take_spec ht
      have hlog : (n1.took cut (runArm i e ⟨n.st, []⟩)).log = n.log ++ cutTo cut (runArm i e ⟨n.st, []⟩).2.log := by
        rw [← e1]; rfl
      have hig : InGen lists V B n.st i := by
        cases x with
        | raw m => simp only [NodeSys.take, Option.some.injEq, Prod.mk.injEq] at ht; obtain ⟨rfl, rfl⟩ := ht; trivial
        | event =>
          rcases e4 with ⟨_, e4⟩ | ⟨_, ev, rfl, e4⟩
          · simp only [NodeSys.take] at ht
            split at ht
            · cases ht
            · simp only [Option.some.injEq, Prod.mk.injEq] at ht
              exact absurd ht.1.symm (e4 _)
          · exact m1.evs ev (by rw [e4]; simp)
        | resp =>
          simp only [NodeSys.take] at ht
          split at ht
          · cases ht
          · simp only [Option.some.injEq, Prod.mk.injEq] at ht; obtain ⟨rfl, rfl⟩ := ht; trivial
        | verified =>
          simp only [NodeSys.take] at ht
          split at ht
          · cases ht
          · rename_i m q hq
            simp only [Option.some.injEq, Prod.mk.injEq] at ht; obtain ⟨rfl, rfl⟩ := ht
            exact hin m q hq
      obtain ⟨v1, d1, _⟩ := lock_arm hlv m1 m2 ok1 ht h.disk (cut := cut)
      have hne : ∀ x, i = .event (.commit x) → x ≠ [] := by
        intro z hz; subst hz; exact hig
      have hob := arm_obs (e := e) hi m2.store m2.reason hne
      refine ⟨cutTo cut (runArm i e ⟨n.st, []⟩).2.log, hlog, ?_, fun V' B' hV hB hcn hvs => ⟨hinv, ?_, ?_, fun hup => ?_⟩⟩
      · rw [m3] at v1
        have hsub : votesOf (cutTo cut (runArm i e ⟨n.st, []⟩).2.log) = [] ∨
            votesOf (cutTo cut (runArm i e ⟨n.st, []⟩).2.log) = votesOf (runArm i e ⟨n.st, []⟩).2.log := by
          cases cut with
          | none => exact .inr rfl
          | some k =>
            have hsl : (votesOf ((runArm i e ⟨n.st, []⟩).2.log.take k)).Sublist (votesOf (runArm i e ⟨n.st, []⟩).2.log) :=
              (List.take_sublist k _).filterMap _
            rcases v1 with v1 | ⟨sv, v1, _⟩
            · rw [v1] at hsl; exact .inl (List.sublist_nil.1 hsl)
            · rw [v1] at hsl ⊢
              have := List.sublist_singleton.1 hsl
              exact this
        rcases hsub with hs | hs
        · exact .inl hs
        · rw [hs]; exact v1
      · obtain ⟨k', hk'⟩ := obs_cut cut (runArm i e ⟨n.st, []⟩).2.log
        rw [hlog, obs_append, hk']; exact (d1 k').mono hB
      · obtain ⟨k', hk'⟩ := obs_cut cut (runArm i e ⟨n.st, []⟩).2.log
        intro o ho
        rw [hlog, obs_append, hk'] at ho
        rcases List.mem_append.1 ho with ho | ho
        · exact (h.obs o ho).mono hB
        · exact (hob o (List.mem_of_mem_take ho)).mono hB
      · obtain ⟨rfl, hr⟩ := took_up hup
        have hig' : InGen lists V' B' n.st i := by
          cases i with
          | verified m => exact fun hm => MsgGen.mono hV hB (hig hm)
          | event ev => exact EvOk.mono hB hig
          | _ => trivial
        obtain ⟨g1, g2⟩ := arm_gen hgl hcn (e := e) hi (m2.mono hV hB) hig' ok5 ok4 ok6 hvs
        obtain ⟨_, _, mm⟩ := lock_arm hlv (m1.mono hB) (m2.mono hV hB) ok1 ht (h.disk.mono hB) (cut := none)
        refine ⟨mm hup g2, g1, ?_⟩
        show (runArm i e ⟨n.st, []⟩).2.st.address = addr
        exact arm_state_inv (e := e) (i := i) (P := fun s => s.address = addr) m3 fun _ _ _ h hm => (micro_address hm).trans h
  | smr =>
    have hd := up (by simp) (by simp)
    obtain ⟨m1, m2, m3⟩ := h.up hd
    have hlv := h.inv.live hd
    simp only [NodeSys.act, hd, Bool.false_eq_true, if_false] at ha
    split at ha
    · cases ha
    · rename_i t q hq
      split at ha
      · cases ha
      · rename_i sys hs
        cases ha
        refine frame rfl rfl (fun _ => hd) fun _ => ?_
        simp only [TimerSys.act, hq] at hs
        split at hs
        · cases hs; exact lock_smr hu hlv m1 hq (ok2 t q hq) (hin t q hq) rfl rfl rfl rfl rfl
        · cases hs; exact lock_smr hu hlv m1 hq (ok2 t q hq) (hin t q hq) rfl rfl rfl rfl rfl
        · cases hs
        · cases hs
  | set =>
    have hd := up (by simp) (by simp)
    obtain ⟨m1, m2, m3⟩ := h.up hd
    simp only [NodeSys.act, hd, Bool.false_eq_true, if_false] at ha
    obtain ⟨sys, hs, rfl⟩ := Option.map_eq_some_iff.1 ha
    refine frame rfl rfl (fun _ => hd) fun _ => ?_
    simp only [TimerSys.act] at hs
    split at hs
    · cases hs
    · cases hs
    · cases hs; exact lock_frame m1 rfl rfl rfl rfl (fun t ht => .inl ht)
  | expire i =>
    have hd := up (by simp) (by simp)
    obtain ⟨m1, m2, m3⟩ := h.up hd
    simp only [NodeSys.act, hd, Bool.false_eq_true, if_false] at ha
    obtain ⟨sys, hs, rfl⟩ := Option.map_eq_some_iff.1 ha
    refine frame rfl rfl (fun _ => hd) fun _ => ?_
    simp only [TimerSys.act] at hs
    split at hs
    · cases hs
    · cases hs; exact lock_frame m1 rfl rfl rfl rfl (fun t ht => .inl ht)
  | fire i =>
    have hd := up (by simp) (by simp)
    obtain ⟨m1, m2, m3⟩ := h.up hd
    simp only [NodeSys.act, hd, Bool.false_eq_true, if_false] at ha
    obtain ⟨sys, hs, rfl⟩ := Option.map_eq_some_iff.1 ha
    refine frame rfl rfl (fun _ => hd) fun _ => ?_
    simp only [TimerSys.act] at hs
    split at hs
    · cases hs
    · cases hs
      refine lock_frame m1 rfl rfl rfl rfl (fun t ht => ?_)
      simp only [List.mem_append, Option.mem_toList] at ht
      rcases ht with ht | ht
      · exact .inl ht
      · exact .inr (timer_cert ht)
  | verifyDone c i =>
    have hd := up (by simp) (by simp)
    obtain ⟨m1, m2, m3⟩ := h.up hd
    simp only [NodeSys.act, hd, Bool.false_eq_true, if_false] at ha
    split at ha
    · cases ha
    · cases ha; exact frame rfl rfl (fun _ => hd) fun _ => lock_frame m1 rfl rfl rfl rfl (fun t ht => .inl ht)
  | checkDone i okb =>
    have hd := up (by simp) (by simp)
    obtain ⟨m1, m2, m3⟩ := h.up hd
    simp only [NodeSys.act, hd, Bool.false_eq_true, if_false] at ha
    split at ha
    · cases ha
    · cases ha; exact frame rfl rfl (fun _ => hd) fun _ => lock_frame m1 rfl rfl rfl rfl (fun t ht => .inl ht)

end Overlord
