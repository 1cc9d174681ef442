import Verif.Proofs.NodeRestart
import Verif.Props.Node

/-!
# Restarts (C30)

Model: `Verif/Model/Node.lean`. Vocabulary: `Verif/Spec/Node.lean`.
-/

set_option linter.unusedSimpArgs false
set_option linter.unusedVariables false
set_option linter.unusedSectionVars false

namespace Overlord
open Spec

variable {T : Type} [ContentCodec T] [DecidableEq T]

/-- The start finds the record `w` in the storage, and the node is in the list it is started with. -/
structure StartsFrom (addr : Address) (p : StartParams) (e : Env T) (w : WalInfo T) : Prop where
  listed : (p.list.map Node.address).contains addr = true
  record : ∃ b, e.walLoad = some (some b) ∧ decWalInfo b = .ok w
  /-- records of height 0 are not covered -/
  height : w.height ≠ 0

/-- **C30** (partial: rounds below 2^64 - 1). After a start from the record `w`, whatever happens until the next
start - any messages, events, timeouts, statuses, crash - every vote the node releases is strictly after the
recorded position: for a later height, a later round of the same height, or a later step of the same round. -/
theorem C30_never_votes_again_partial (addr : Address) (n0 n1 n2 : NodeSys T) (p : StartParams) (e : Env T)
    (cut : Option Nat) (w : WalInfo T) (as : List (NAct T))
    (hw : StartsFrom addr p e w) (h1 : n0.act addr (.start p e cut) = some n1) (h2 : n1.run addr as = some n2)
    (hs : ∀ a ∈ as, ∀ p e c, a ≠ .start p e c) (hr : Along RoundSmall addr n1 as) :
    ∀ v ∈ votesOf (n2.log.drop n0.log.length), Pos.lt (recPos w) (votePos v) := by
  obtain ⟨b, hb, hd⟩ := hw.record
  have h0 := start_anchored hw.listed hb hd hw.height h1
  clear h1 hb hd
  have key : ∀ (as : List (NAct T)) (n1 : NodeSys T), Anchored w n0.log.length n1 → (∀ a ∈ as, ∀ p e c, a ≠ .start p e c) →
      Along RoundSmall addr n1 as → n1.run addr as = some n2 → Anchored w n0.log.length n2 := by
    intro as
    induction as with
    | nil => intro n1 h _ _ hr; simp only [NodeSys.run, Option.some.injEq] at hr; exact hr ▸ h
    | cons a as ih =>
      intro n1 h hs hal hr
      simp only [NodeSys.run] at hr
      split at hr
      · cases hr
      · rename_i n' hn'
        exact ih n' (after_act h hal.1 (fun p e c => hs a (by simp) p e c) hn')
          (fun a' ha' => hs a' (List.mem_cons_of_mem _ ha')) (hal.2 n' hn') hr
  exact (key as n1 h0 hs hr h2).votes

/-- **C30** (partial). A node that comes up from the record `w` of another step than commit, with a leader for the
recorded round: its State is at the recorded height and round, has the recorded reason for the round, the
certificate of the lock and its content; its voting state machine has the recorded height, round, step and lock.
Missing: a record of the brake step, if handling the brake fails (the signature, the storage or the aggregation):
then the voting state machine is never told to resume (see `C30_brake_failure`). -/
theorem C30_resumes_partial (addr : Address) (n0 n1 : NodeSys T) (p : StartParams) (e : Env T) (w : WalInfo T)
    (hw : StartsFrom addr p e w) (hc : w.step ≠ .commit)
    (hl : ∃ l, (Authority.update p.list).getProposer e.mode w.height w.round = .ok l)
    (h1 : n0.act addr (.start p e none) = some n1) (hup : n1.down = false) :
    n1.st.height = w.height ∧ n1.st.round = w.round ∧ n1.st.updateFrom = w.from ∧
    (∀ lock, w.lock = some lock →
      n1.st.votes.getQcById lock.lockVotes.height lock.lockVotes.round lock.lockVotes.voteType = .ok lock.lockVotes ∧
      n1.st.hashWithBlock.get? lock.lockVotes.blockHash = some lock.content) ∧
    ((n1.sys.smr.height = w.height ∧ n1.sys.smr.round = w.round ∧ n1.sys.smr.step = w.step ∧
        n1.sys.smr.lock = w.lock.map fun l => ⟨l.lockRound, l.lockVotes.blockHash⟩) ∨
      (w.step = .brake ∧ n1.sys.smr = Smr.init)) := by
  obtain ⟨b, hb, hd⟩ := hw.record
  obtain ⟨l, hl⟩ := hl
  obtain ⟨_, hcase⟩ := start_act h1
  rcases hcase with ⟨h, _⟩ | ⟨_, _, _, heq⟩
  · rw [hup] at h; cases h
  have o := start_out e (State.new addr p.initHeight p.interval p.list : State T)
  generalize (runArm .start e ⟨State.new addr p.initHeight p.interval p.list, []⟩).2 = res at *
  rw [heq] at hup
  have hto := start_to hw.listed hb hd hw.height o hup
  have hst : n1.st = res.st := by rw [heq]; unfold NodeSys.started; rw [drain_st]
  have hpow : (State.new addr p.initHeight p.interval p.list : State T).consensusPower = true := by
    rw [new_power, hw.listed]
  -- the restored state
  have hres : ∃ pr, SameButChokes ((State.new addr p.initHeight p.interval p.list : State T).restored w pr) res.st := by
    cases o with
    | idle hw' h =>
      exfalso
      rcases h hpow with (h | ⟨b', x, h, h'⟩) | h
      · rw [hb] at h; cases h
      · rw [hb] at h; cases h; rw [hd] at h'; cases h'
      · rw [hb] at h; cases h.1
    | fresh hp hl' => rw [hb] at hl'; cases hl'
    | noLeader b' rec x hp hl' hdec hx hw' =>
      rw [hb] at hl'; cases hl'; rw [hd] at hdec; cases hdec
      have hx : (Authority.update p.list).getProposer e.mode w.height w.round = .error x := hx
      rw [hl] at hx; cases hx
    | noLock b' rec pr hp hl' hdec hx hst hlk hw' =>
      rw [hb] at hl'; cases hl'; rw [hd] at hdec; cases hdec
      exact absurd hst hc
    | commit b' rec pr lock hp hl' hdec hx hst hlk o =>
      rw [hb] at hl'; cases hl'; rw [hd] at hdec; cases hdec
      exact absurd hst hc
    | brake b' rec pr hp hl' hdec hx hst w1 o hw' =>
      rw [hb] at hl'; cases hl'; rw [hd] at hdec; cases hdec
      exact ⟨pr, by rcases hw' with rfl | rfl <;> exact o.keep⟩
    | resume b' rec pr hp hl' hdec hx hst hsb hw' =>
      rw [hb] at hl'; cases hl'; rw [hd] at hdec; cases hdec
      exact ⟨pr, by rw [hw']; exact ⟨rfl, rfl, rfl, rfl, rfl, rfl, rfl⟩⟩
  obtain ⟨pr, hk1, hk2, hk3, _⟩ := hres
  refine ⟨?_, ?_, ?_, ?_, ?_⟩
  · rw [hst]; cases hto with
    | told _ h => exact h.1
    | stuck h => exact h.1
    | moved h => exact absurd h hc
  · rw [hst]; cases hto with
    | told _ h => exact h.2
    | stuck h => exact h.2
    | moved h => exact absurd h hc
  · rw [hst, hk3]; unfold State.restored; split <;> rfl
  · intro lock hlk
    rw [hst, hk1, hk2]
    unfold State.restored
    rw [hlk]
    dsimp only
    rw [getQcById_iff, qcId_setQc]
    simp [AMap.get?_insert]
  · cases hto with
    | told evt _ _ heq' =>
      left
      rw [heq, heq']
      dsimp only
      have : ∀ b : SMRBase, (Smr.init.handleWal b).next.height = b.height ∧ (Smr.init.handleWal b).next.round = b.round ∧
          (Smr.init.handleWal b).next.step = b.step ∧ (Smr.init.handleWal b).next.lock = b.polc := by
        intro b; unfold Smr.handleWal; dsimp only; split <;> exact ⟨rfl, rfl, rfl, rfl⟩
      obtain ⟨a1, a2, a3, a4⟩ := this w.intoSmrBase
      refine ⟨a1, a2, a3, ?_⟩
      rw [a4]; cases hlk : w.lock <;> simp [WalInfo.intoSmrBase, hlk, WalLock.toLock]
    | stuck _ heq' =>
      right
      refine ⟨?_, by rw [heq, heq']; rfl⟩
      cases o with
      | brake b' rec pr hp hl' hdec hx hst w1 o hw' =>
        rw [hb] at hl'; cases hl'; rw [hd] at hdec; cases hdec
        exact hst
      | resume b' rec pr hp hl' hdec hx hst hsb hw' =>
        -- the machine was told
        exfalso
        rw [hb] at hl'; cases hl'; rw [hd] at hdec; cases hdec
        subst hw'
        obtain ⟨evt, hdw⟩ := drain_wal ({ (NodeSys.fresh addr p n0.log).absorb [.trigger (walTrig w.intoSmrBase)] with
          sys := { (NodeSys.fresh addr p n0.log : NodeSys T).sys with trigQ := [] },
          st := (State.new addr p.initHeight p.interval p.list).restored w pr, down := false } : NodeSys T)
          w.intoSmrBase (by simp [WalInfo.intoSmrBase, hc])
        have hx : NodeSys.started addr p n0.log ⟨(State.new addr p.initHeight p.interval p.list).restored w pr, [.trigger (walTrig w.intoSmrBase)]⟩ = _ := hdw
        rw [hx] at heq'
        have := congrArg (fun n : NodeSys T => n.sys.smr.height) heq'
        dsimp only at this
        have h0 : (Smr.init.handleWal w.intoSmrBase).next.height = w.height := by
          unfold Smr.handleWal; dsimp only; split <;> rfl
        exact hw.height (h0.symm.trans this)
      | idle hw' h =>
        exfalso
        rcases h hpow with (h | ⟨b', x, h, h'⟩) | h
        · rw [hb] at h; cases h
        · rw [hb] at h; cases h; rw [hd] at h'; cases h'
        · rw [hb] at h; cases h.1
      | fresh hp hl' => rw [hb] at hl'; cases hl'
      | noLeader b' rec x hp hl' hdec hx hw' =>
        rw [hb] at hl'; cases hl'; rw [hd] at hdec; cases hdec
        have hx : (Authority.update p.list).getProposer e.mode w.height w.round = .error x := hx
        rw [hl] at hx; cases hx
      | noLock b' rec pr hp hl' hdec hx hst hlk hw' =>
        rw [hb] at hl'; cases hl'; rw [hd] at hdec; cases hdec
        exact absurd hst hc
      | commit b' rec pr lock hp hl' hdec hx hst hlk o =>
        rw [hb] at hl'; cases hl'; rw [hd] at hdec; cases hdec
        exact absurd hst hc
    | moved h => exact absurd h hc

/-! ## Commits -/

/-- Effects of one input: commits come after their records, and records of the commit step are as they should be. -/
theorem arm_commit {e : Env T} {i : Input T} {s : State T} (hf : Filed s) :
    Preceded (fun x : Effect T => ∃ k c r, x = .commitCall k c r)
      (fun y x => ∃ w, y = .saveWal w true ∧ CommitRecord w ∧ ∃ c r, x = .commitCall w.height c r ∧ recordedCommit w = some c)
      (runArm i e ⟨s, []⟩).2.log ∧
    ∀ w ∈ savedOf (runArm i e ⟨s, []⟩).2.log, w.step = .commit → CommitRecord w := by
  refine (arm_inv (e := e) (i := i) (s := s) (P := fun w => Filed w.st ∧ Preceded (fun x : Effect T => ∃ k c r, x = .commitCall k c r)
      (fun y x => ∃ w, y = .saveWal w true ∧ CommitRecord w ∧ ∃ c r, x = .commitCall w.height c r ∧ recordedCommit w = some c) w.log ∧
      ∀ r ∈ savedOf w.log, r.step = .commit → CommitRecord r) ⟨hf, Preceded.nil, by simp [savedOf]⟩ ?_).2
  intro w eff s' ⟨h1, h2, h3⟩ hm
  refine ⟨h1.micro hm, ?_⟩
  have key : Preceded (fun x : Effect T => ∃ k c r, x = .commitCall k c r)
      (fun y x => ∃ w, y = .saveWal w true ∧ CommitRecord w ∧ ∃ c r, x = .commitCall w.height c r ∧ recordedCommit w = some c) eff ∧
      ∀ r ∈ savedOf eff, r.step = .commit → CommitRecord r := by
    cases hm with
    | commit hash content qc hsv hi hb hq c hc =>
      obtain ⟨a1, a2, a3, _⟩ := h1.votes.getQcByHash hq
      have hr : CommitRecord (walRec w.st .commit (some { lockRound := w.st.round, lockVotes := qc, content := content })) :=
        ⟨rfl, _, rfl, rfl, a1, a3⟩
      refine ⟨Preceded.pair (by simp) ⟨_, rfl, hr, c, _, rfl, ?_⟩, ?_⟩
      · rw [hc]; simp [recordedCommit, walRec, mkCommit, a2]
      · intro r hr' _
        simp [savedOf] at hr'
        rw [hr']; exact hr
    | castVote ty hash lr lock sv hsv hi hl hv ha hs =>
      refine ⟨Preceded.none (by intro x hx; split at hx <;> simp at hx <;> rcases hx with rfl | rfl <;> simp), ?_⟩
      intro r hr' hst
      have : r = walRec w.st ty.toStep lock := by
        split at hr' <;> simpa [savedOf] using hr'
      rw [this] at hst
      cases ty <;> cases hst
    | castChoke sc lr lock hsv hi hl hc ha hs =>
      refine ⟨Preceded.none (by simp), ?_⟩
      intro r hr' hst
      simp [savedOf] at hr'
      rw [hr'] at hst; cases hst
    | wal step lr lock ok hsv hl hi =>
      refine ⟨Preceded.none (by simp), ?_⟩
      intro r hr' hst
      cases ok with
      | false => simp [savedOf] at hr'
      | true =>
        simp [savedOf] at hr'
        rw [hr'] at hst
        rcases hi with ⟨h, _⟩ | ⟨h, _⟩
        · rw [h] at hst; cases hst
        · cases h
    | adopt status hsv hi hh hp =>
      refine ⟨Preceded.none (by
        intro x hx
        simp at hx
        rcases hx with rfl | ⟨m, _, rfl⟩ | rfl <;> simp), ?_⟩
      intro r hr' hst
      simp [savedOf] at hr'
      rw [hr'] at hst; cases hst
    | enterRound => 
      split <;> exact ⟨Preceded.none (by simp), by simp [savedOf]⟩
    | _ => exact ⟨Preceded.none (by simp), by simp [savedOf]⟩
  refine ⟨h2.append key.1, ?_⟩
  intro r hr
  simp only [savedOf, List.filterMap_append, List.mem_append] at hr
  rcases hr with hr | hr
  · exact h3 r hr
  · exact key.2 r hr

theorem node_commit {addr : Address} {as : List (NAct T)} {n : NodeSys T} (h : (NodeSys.new addr).run addr as = some n) :
    Preceded (fun x : Effect T => ∃ k c r, x = .commitCall k c r)
      (fun y x => ∃ w, y = .saveWal w true ∧ CommitRecord w ∧ ∃ c r, x = .commitCall w.height c r ∧ recordedCommit w = some c) n.log ∧
    ∀ w ∈ savedOf n.log, w.step = .commit → CommitRecord w := by
  refine life_inv (P := fun _ n => Preceded (fun x : Effect T => ∃ k c r, x = .commitCall k c r)
      (fun y x => ∃ w, y = .saveWal w true ∧ CommitRecord w ∧ ∃ c r, x = .commitCall w.height c r ∧ recordedCommit w = some c) n.log ∧
    ∀ w ∈ savedOf n.log, w.step = .commit → CommitRecord w) ⟨Preceded.nil, by simp [NodeSys.new, NodeSys.fresh, savedOf]⟩ ?_ as n h
  intro as n a n' hrun ih ha
  rcases act_log ha with ⟨h1, _⟩ | ⟨i, e, cut, s, h1, _, h3⟩
  · rw [h1]; exact ih
  · have hf : Filed s := by
      rcases h3 with ⟨hd, rfl, _⟩ | ⟨_, _, p, _, rfl⟩
      · exact node_filed hrun hd
      · exact Store.new ..
    obtain ⟨g1, g2⟩ := arm_commit (e := e) (i := i) hf
    rw [h1]
    refine ⟨ih.1.append (Preceded.take g1 cut), ?_⟩
    intro r hr
    simp only [savedOf, List.filterMap_append, List.mem_append] at hr
    rcases hr with hr | hr
    · exact ih.2 r hr
    · refine g2 r ?_
      cases cut with
      | none => exact hr
      | some k =>
        simp only [List.mem_filterMap, cutTo] at hr
        obtain ⟨x, hx, he⟩ := hr
        exact List.mem_filterMap.2 ⟨x, List.mem_of_mem_take hx, he⟩

/-- **C30** (commits). In every life of a node, directly before a commit is handed to the application, a record of it
has been saved: its height, content and proof are those of the commit. -/
theorem C30_commit_recorded (addr : Address) (as : List (NAct T)) (n : NodeSys T)
    (hr : (NodeSys.new addr).run addr as = some n) (a b : List (Effect T)) (k : Nat) (c : Commit T) (r : Option Status)
    (hl : n.log = a ++ .commitCall k c r :: b) :
    ∃ a' w, a = a' ++ [.saveWal w true] ∧ CommitRecord w ∧ w.height = k ∧ recordedCommit w = some c := by
  obtain ⟨a', y, h1, w, h2, h3, c', r', h4, h5⟩ := (node_commit hr).1 a _ b hl ⟨k, c, r, rfl⟩
  simp only [Effect.commitCall.injEq] at h4
  obtain ⟨h6, h7, _⟩ := h4
  exact ⟨a', w, by rw [h1, h2], h3, h6.symm, h7 ▸ h5⟩

/-- **C30** (commits). All records of the commit step that a node saves in its life hold a precommit certificate of
their height. -/
theorem C30_commit_records_complete (addr : Address) (as : List (NAct T)) (n : NodeSys T)
    (hr : (NodeSys.new addr).run addr as = some n) (w : WalInfo T) (hw : w ∈ savedOf n.log) (hs : w.step = .commit) :
    CommitRecord w := (node_commit hr).2 w hw hs

/-- The commits a node asks for during a start. -/
def commitsAt (log : List (Effect T)) : List (Nat × Commit T) :=
  log.filterMap fun
    | .commitCall k c _ => some (k, c)
    | _ => none

theorem moves_noCommit {e : Env T} {s : State T} {status : Status} {w : World T} (m : Moves e s status w) : commitsAt w.log = [] := by
  cases m with
  | adopt => simp [commitsAt, List.filterMap_map, Function.comp_def]
  | _ => rfl

theorem commit_commits {e : Env T} {s : State T} {hash : Hash} {w : World T} (o : CommitOut e s hash w) :
    commitsAt w.log = [] ∨ ∃ content qc, s.hashWithBlock.get? hash = some content ∧
      s.votes.getQcByHash s.height hash .precommit = some qc ∧ commitsAt w.log = [(s.height, mkCommit s hash content qc)] := by
  cases o with
  | none => exact .inl rfl
  | lost => exact .inl rfl
  | failed content qc hb hq => exact .inr ⟨content, qc, hb, hq, rfl⟩
  | stuck content qc st x hb hq => exact .inr ⟨content, qc, hb, hq, rfl⟩
  | done content qc st w hb hq hs hc hm =>
    refine .inr ⟨content, qc, hb, hq, ?_⟩
    have := moves_noCommit hm
    simp only [commitsAt] at this ⊢
    rw [List.filterMap_append, this]; rfl

/-- **C30** (commits). A start from a record of the commit step (in a node that is in its list, with a leader for the
recorded position, and a storage that takes the record once more) hands to the application exactly one commit: the
recorded one, with the same content and the same proof. -/
theorem C30_commit_again (addr : Address) (n0 n1 : NodeSys T) (p : StartParams) (e : Env T) (w : WalInfo T)
    (hw : StartsFrom addr p e w) (hc : CommitRecord w)
    (hl : ∃ l, (Authority.update p.list).getProposer e.mode w.height w.round = .ok l)
    (hs : ∃ b, encWalInfo w = some b ∧ e.walSave b = true)
    (h1 : n0.act addr (.start p e none) = some n1) :
    ∃ c, recordedCommit w = some c ∧ commitsAt (n1.log.drop n0.log.length) = [(w.height, c)] := by
  obtain ⟨b, hb, hd⟩ := hw.record
  obtain ⟨hst, lock, hlk, hlr, hlh, hlt⟩ := hc
  obtain ⟨l, hl⟩ := hl
  obtain ⟨_, hcase⟩ := start_act h1
  have hlog : n1.log = n0.log ++ (runArm .start e ⟨State.new addr p.initHeight p.interval p.list, []⟩).2.log := by
    rcases hcase with ⟨_, h⟩ | ⟨_, _, h, _⟩ <;> exact h
  have o := start_out e (State.new addr p.initHeight p.interval p.list : State T)
  have hpow : (State.new addr p.initHeight p.interval p.list : State T).consensusPower = true := by
    rw [new_power, hw.listed]
  rw [hlog, List.drop_left]
  generalize (runArm .start e ⟨State.new addr p.initHeight p.interval p.list, []⟩).2 = res at *
  cases o with
  | commit b' rec pr lock' hp hl' hdec hx hst' hlk' o =>
    rw [hb] at hl'; cases hl'; rw [hd] at hdec; cases hdec
    rw [hlk] at hlk'; cases hlk'
    have e1 : ((State.new addr p.initHeight p.interval p.list : State T).restored w pr).hashWithBlock.get? lock.lockVotes.blockHash = some lock.content := by
      unfold State.restored; rw [hlk]; dsimp only; rw [AMap.get?_insert, if_pos rfl]
    have e2 : ((State.new addr p.initHeight p.interval p.list : State T).restored w pr).votes.getQcByHash w.height lock.lockVotes.blockHash .precommit = some lock.lockVotes := by
      unfold State.restored; rw [hlk]; dsimp only; rw [getQcByHash_setQc]; simp [hlh, hlt]
    have e3 : ((State.new addr p.initHeight p.interval p.list : State T).restored w pr).height = w.height := by
      unfold State.restored; rw [hlk]
    have e4 : commitRec ((State.new addr p.initHeight p.interval p.list : State T).restored w pr) lock.lockVotes lock.content = w := by
      cases w
      simp only at hlk hst hlr
      subst hlk hst
      simp [commitRec, walRec, State.restored, ← hlr]
    have hne : commitsAt res.log ≠ [] := by
      obtain ⟨bs, hbs, hsv⟩ := hs
      cases o with
      | none hn =>
        have := hn _ _ e1 (by rw [e3]; exact e2)
        rw [e4, hbs] at this; cases this
      | lost content qc hb' hq hs' =>
        rw [e1] at hb'; cases hb'
        rw [e3, e2] at hq; cases hq
        obtain ⟨b2, g1, g2⟩ := hs'
        rw [e4, hbs] at g1; cases g1; rw [hsv] at g2; cases g2
      | failed => simp [commitsAt]
      | stuck => simp [commitsAt]
      | done => simp [commitsAt]
    rcases commit_commits o with h | ⟨content, qc, g1, g2, g3⟩
    · exact absurd h hne
    · rw [e1] at g1; cases g1
      rw [e3, e2] at g2; cases g2
      refine ⟨_, ?_, by rw [g3, e3]⟩
      simp [recordedCommit, hlk, mkCommit, e3]
  | idle hw' h =>
    exfalso
    rcases h hpow with (h | ⟨b', x, h, h'⟩) | h
    · rw [hb] at h; cases h
    · rw [hb] at h; cases h; rw [hd] at h'; cases h'
    · rw [hb] at h; cases h.1
  | fresh hp hl' => rw [hb] at hl'; cases hl'
  | noLeader b' rec x hp hl' hdec hx hw' =>
    rw [hb] at hl'; cases hl'; rw [hd] at hdec; cases hdec
    have hx : (Authority.update p.list).getProposer e.mode w.height w.round = .error x := hx
    rw [hl] at hx; cases hx
  | noLock b' rec pr hp hl' hdec hx hst hlk' hw' =>
    rw [hb] at hl'; cases hl'; rw [hd] at hdec; cases hdec
    rw [hlk] at hlk'; cases hlk'
  | brake b' rec pr hp hl' hdec hx hst' w1 o hw' =>
    rw [hb] at hl'; cases hl'; rw [hd] at hdec; cases hdec
    rw [hst] at hst'; cases hst'
  | resume b' rec pr hp hl' hdec hx hst' hsb hw' =>
    rw [hb] at hl'; cases hl'; rw [hd] at hdec; cases hdec
    exact absurd hst hst'

/-! ## The hypotheses can be met; what is missing -/

namespace StDemo

/-- The node has been braking in round 0 of height 7. -/
def brakeRec : WalInfo C := { prevoteRec with step := .brake }

/-- The node was about to commit `[5, 5]`. -/
def commitRec7 : WalInfo C :=
  { height := 7, round := 0, step := .commit,
    lock := some { lockRound := 0, lockVotes := cert [2, 3, 4] 7 0 .precommit [5], content := [5, 5] },
    «from» := .precommitQC mockInitQc }

theorem startsFrom_prevote : StartsFrom [1] params (envRestart prevoteRec) prevoteRec :=
  ⟨by decide +kernel, ⟨(encWalInfo prevoteRec).getD [], by decide +kernel⟩, by decide⟩

theorem startsFrom_brake : StartsFrom [1] params { envBroken with walLoad := some (encWalInfo brakeRec) } brakeRec :=
  ⟨by decide +kernel, ⟨(encWalInfo brakeRec).getD [], by decide +kernel⟩, by decide⟩

theorem startsFrom_commit : StartsFrom [1] params (envRestart commitRec7) commitRec7 :=
  ⟨by decide +kernel, ⟨(encWalInfo commitRec7).getD [], by decide +kernel⟩, by decide⟩

/-- The restarted node votes again: after the proposal it asks for nothing new in the prevote step, after the prevote
certificate it precommits. -/
def afterRestart : List (NAct C) :=
  deliver (.signedProposal (prop 2 7 0 [5, 5] [5])) ++ [.checkDone 0 true, .arm .resp env none] ++
  deliver (.aggregatedVote (cert [2, 3, 4] 7 0 .prevote [5])) ++ [.smr, .smr, .arm .event env none]

example : ∃ n1, (NodeSys.new [1]).act [1] (.start params (envRestart prevoteRec) none) = some n1 ∧ n1.down = false ∧
    alongB roundSmallB [1] n1 afterRestart = true ∧
    (n1.run [1] afterRestart).map votesSeen = some [(7, 0, .precommit, [5])] := by
  have hd : (match (NodeSys.new [1]).act [1] (.start params (envRestart prevoteRec) none) with
      | some n1 => decide (n1.down = false ∧ alongB roundSmallB [1] n1 afterRestart = true ∧
          (n1.run [1] afterRestart).map votesSeen = some [(7, 0, .precommit, [5])])
      | none => false) = true := by decide +kernel
  split at hd
  · rename_i n hn; exact ⟨n, hn, of_decide_eq_true hd⟩
  · cases hd

example : prevoteRec.step ≠ .commit ∧ ∃ l, (Authority.update params.list).getProposer (envRestart prevoteRec).mode
    prevoteRec.height prevoteRec.round = .ok l := ⟨by decide, [2], by decide +kernel⟩

/-- A life in which the record is saved, the node crashes before the commit, and commits after the restart. -/
def commitLife : List (NAct C) :=
  [.start params env none] ++ deliver (.signedProposal (prop 2 7 0 [5, 5] [5])) ++
  [.smr, .arm .event env none, .checkDone 0 true, .arm .resp env none] ++
  deliver (.aggregatedVote (cert [2, 3, 4] 7 0 .prevote [5])) ++ [.smr, .arm .event env none] ++
  deliver (.aggregatedVote (cert [2, 3, 4] 7 0 .precommit [5])) ++ [.smr, .arm .event env (some 1),
  .start params (envRestart commitRec7) none]

example : ((NodeSys.new [1]).run [1] commitLife).map (fun n => (commitsAt n.log, (savedOf n.log).filter (fun w => w.step = .commit))) =
    some ([(7, ⟨7, [5, 5], ⟨7, 0, [5], (cert [2, 3, 4] 7 0 .precommit [5]).signature⟩⟩)], [commitRec7, commitRec7]) := by
  decide +kernel

example : CommitRecord commitRec7 ∧ (∃ l, (Authority.update params.list).getProposer (envRestart commitRec7).mode
    commitRec7.height commitRec7.round = .ok l) ∧
    (∃ b, encWalInfo commitRec7 = some b ∧ (envRestart commitRec7).walSave b = true) ∧
    ∃ n1, (NodeSys.new [1]).act [1] (.start params (envRestart commitRec7) none) = some n1 :=
  ⟨⟨rfl, _, rfl, rfl, rfl, rfl⟩, ⟨[2], by decide +kernel⟩, ⟨(encWalInfo commitRec7).getD [], by decide +kernel⟩, _, rfl⟩

end StDemo

/-- What is missing in C30: the node was braking when it stopped. If the first save after the restart fails, the
node comes up, its State is in the recorded round, but its voting state machine never hears of the record: it stays
at height 0 and refuses every certificate of the recorded height. -/
theorem C30_brake_failure :
    ∃ (p : StartParams) (e : Env StDemo.C) (w : WalInfo StDemo.C) (n1 : NodeSys StDemo.C), StartsFrom [1] p e w ∧
      (NodeSys.new [1]).act [1] (.start p e none) = some n1 ∧ n1.down = false ∧ w.step = .brake ∧
      n1.st.height = w.height ∧ n1.st.round = w.round ∧ n1.sys.smr = Smr.init ∧ n1.sys.smr.height ≠ w.height ∧
      n1.sys.trigQ = [] := by
  have h : ∃ n1, (NodeSys.new [1]).act [1]
      (.start StDemo.params { StDemo.envBroken with walLoad := some (encWalInfo StDemo.brakeRec) } none) = some n1 ∧
      (n1.down = false ∧ n1.st.height = 7 ∧ n1.st.round = 0 ∧ n1.sys.smr = Smr.init ∧ n1.sys.smr.height ≠ 7 ∧
      n1.sys.trigQ = []) := by
    have hd : (match (NodeSys.new [1]).act [1]
        (.start StDemo.params { StDemo.envBroken with walLoad := some (encWalInfo StDemo.brakeRec) } none) with
      | some n1 => decide (n1.down = false ∧ n1.st.height = 7 ∧ n1.st.round = 0 ∧ n1.sys.smr = Smr.init ∧
          n1.sys.smr.height ≠ 7 ∧ n1.sys.trigQ = [])
      | none => false) = true := by decide +kernel
    split at hd
    · rename_i n hn; exact ⟨n, hn, of_decide_eq_true hd⟩
    · cases hd
  obtain ⟨n1, h1, h2, h3, h4, h5, h6, h7⟩ := h
  exact ⟨_, _, _, n1, StDemo.startsFrom_brake, h1, h2, rfl, h3, h4, h5, h6, h7⟩

end Overlord
