import Verif.Proofs.NodeStart
import Verif.Proofs.Store

/-! A node after a restart from a record (used for C30). -/

set_option linter.unusedSimpArgs false
set_option linter.unusedVariables false
set_option linter.unusedSectionVars false
set_option linter.unnecessarySeqFocus false

namespace Overlord
open M Spec

variable {T : Type} [ContentCodec T] [DecidableEq T]

/-- Heights never decrease inside an input that is not a start. -/
theorem micro_height {e : Env T} {i : Input T} {s s' : State T} {eff : List (Effect T)} (hi : i ≠ .start)
    (hm : Micro e i s eff s') : s.height ≤ s'.height := by
  cases hm with
  | move st _ hlt => exact Nat.le_of_lt hlt
  | moveLost st _ _ hlt => exact Nat.le_of_lt hlt
  | adopt st _ _ hlt => exact Nat.le_of_lt hlt
  | restorePos _ _ h => exact absurd h hi
  | _ => exact Nat.le_refl _

/-- Triggers are never for a height below that of the State. -/
theorem arm_trig_height {e : Env T} {i : Input T} {s : State T} (hi : i ≠ .start) (hf : Filed s) {t : SMRTrigger}
    (ht : .trigger t ∈ (runArm i e ⟨s, []⟩).2.log) : s.height ≤ t.height := by
  obtain ⟨s1, eff, s2, ⟨hf1, hle⟩, hm, hx⟩ := arm_effect (P := fun x => Filed x ∧ s.height ≤ x.height) ⟨hf, Nat.le_refl _⟩
    (fun s1 eff s2 h hm => ⟨h.1.micro hm, Nat.le_trans h.2 (micro_height hi hm)⟩) ht
  cases hm with
  | trigQcId r ty qc =>
    simp only [List.mem_singleton, Effect.trigger.injEq] at hx
    subst hx; exact hle
  | trigQcHash h ty qc _ hq =>
    simp only [List.mem_singleton, Effect.trigger.injEq] at hx
    subst hx
    have := (hf1.votes.getQcByHash hq).1
    simp only [stTrigger]; omega
  | adopt st _ _ hlt =>
    simp at hx
    subst hx
    simp only [stTrigger]; omega
  | walLost h => exact absurd h hi
  | walTrigger _ _ h => exact absurd h hi
  | castVote => simp at hx; split at hx <;> simp at hx
  | enterRound => split at hx <;> simp at hx
  | _ => simp [stTrigger] at hx <;> (try (subst hx; dsimp only; omega))

theorem arm_filed {e : Env T} {i : Input T} {s : State T} (hf : Filed s) : Filed (runArm i e ⟨s, []⟩).2.st :=
  arm_state_inv (e := e) (i := i) (P := Filed) hf fun _ _ _ h hm => h.micro hm

theorem moves_votes {e : Env T} {s : State T} {status : Status} {w : World T} (m : Moves e s status w) : votesOf w.log = [] := by
  rw [votesOf_obs]
  cases m with
  | adopt => rw [obs_adopt _ _ _ _ status.toSMR rfl]; rfl
  | _ => rfl

theorem commit_votes {e : Env T} {s : State T} {hash : Hash} {w : World T} (c : CommitOut e s hash w) : votesOf w.log = [] := by
  cases c with
  | done content qc status w hb hq hs hc hm =>
    have := moves_votes hm
    dsimp only
    rw [votesOf_append, this]; rfl
  | _ => rfl

/-- The votes an input makes the State release. -/
theorem arm_votes {e : Env T} {s : State T} {i : Input T} (hi : i ≠ .start) {v : SignedVote}
    (hv : v ∈ votesOf (runArm i e ⟨s, []⟩).2.log) :
    s.consensusPower = true ∧ v.voter = s.address ∧
    ∃ ty h r hash lr, i = .event (match ty with
      | VoteType.prevote => .prevoteVote h r hash lr
      | .precommit => .precommitVote h r hash lr) ∧ v.vote = ⟨s.height, s.round, ty, hash⟩ ∧
      VoteOut s ty hash lr (runArm i e ⟨s, []⟩).2 := by
  have one : ∀ {ty hash lr} {w : World T}, VoteOut s ty hash lr w → v ∈ votesOf w.log →
      v.voter = s.address ∧ v.vote = ⟨s.height, s.round, ty, hash⟩ := by
    intro ty hash lr w o hv
    rw [votesOf_obs] at hv
    rcases o.out with ho | ⟨lock, sv, _, h1, h2, ho⟩
    · rw [ho] at hv; simp [obsVotes] at hv
    · rw [ho] at hv
      simp [obsVotes] at hv
      rw [hv]; exact ⟨h2, h1⟩
  cases arm_out e s i hi with
  | quiet q1 q2 q3 => rw [votesOf_obs, q1] at hv; simp [obsVotes] at hv
  | status st hst o => rw [moves_votes o] at hv; cases hv
  | event ev hev hp o =>
    subst hev
    generalize (runArm (.event ev) e ⟨s, []⟩).2 = w at *
    cases o with
    | newRound h0 r lr lp f ni nc o =>
      rw [votesOf_obs] at hv
      rcases o.out with ho | ⟨lock, u, _, ho⟩ <;> rw [ho] at hv <;> simp [obsVotes] at hv
    | prevote h0 r hash lr o =>
      obtain ⟨a, b⟩ := one o hv
      exact ⟨hp, a, .prevote, h0, r, hash, lr, rfl, b, o⟩
    | precommit h0 r hash lr o =>
      obtain ⟨a, b⟩ := one o hv
      exact ⟨hp, a, .precommit, h0, r, hash, lr, rfl, b, o⟩
    | commit hash o => rw [commit_votes o] at hv; cases hv
    | brake r lr o =>
      rw [votesOf_obs] at hv
      rcases o.out with ho | ⟨lock, _, ho⟩ <;> rw [ho] at hv <;> simp [obsVotes] at hv
    | stale h0 r lr hh hw => rw [hw] at hv; cases hv
    | stop hw => rw [hw] at hv; cases hv

theorem votesOf_cut {cut : Option Nat} {l : List (Effect T)} {v : SignedVote} (h : v ∈ votesOf (cutTo cut l)) : v ∈ votesOf l := by
  cases cut with
  | none => exact h
  | some k =>
    have : (votesOf (l.take k)).Sublist (votesOf l) := (List.take_sublist k l).filterMap _
    exact this.subset h

/-- Votes released by a live node are after its base. -/
theorem live_votes {k : Nat} {p0 : Pos} {n n1 : NodeSys T} {a : Arm T} {e : Env T} {i : Input T} {cut : Option Nat}
    (h : Live k p0 n) (ok : InSync n (.arm a e cut)) (ht : n.take a = some (i, n1)) {v : SignedVote}
    (hv : v ∈ votesOf (runArm i e ⟨n.st, []⟩).2.log) : Pos.lt p0 (votePos v) := by
  obtain ⟨hi, e1, e2, e3, e4⟩ := take_spec ht
  obtain ⟨hp, _, ty, h0, r, hash, lr, rfl, hvv, o⟩ := arm_votes hi hv
  have hnw := fun t => arm_notWal (e := e) (s := n.st) (t := t) hi
  rcases e4 with ⟨_, e4⟩ | ⟨rfl, ev, hev, e4⟩
  · exact absurd rfl (e4 _)
  · simp only [Input.event.injEq] at hev
    subst hev
    generalize runArm _ e ⟨n.st, []⟩ = res at *
    have hsync := ok _ _ h0 e4 (by cases ty <;> rfl)
    have := (live_vote (h0 := h0) (r0 := r) (q := n1.stQ) (n' := { n with log := n.log ++ res.2.log, st := res.2.st, stQ := n1.stQ, sys := { n.sys with trigQ := n.sys.trigQ ++ trigsOf res.2.log } })
      h o (by clear hv hvv hsync; cases ty <;> exact e4) hsync hp rfl rfl rfl rfl hnw rfl).1.base
    refine this v ?_
    rw [votesFrom_append h.len rfl]
    exact List.mem_append_right _ hv

/-! ## The invariant after a restart -/

/-- The machine works at height `H`. -/
def Told (H : Nat) (n : NodeSys T) : Prop :=
  n.sys.smr.height = H ∧ ∀ ev ∈ n.stQ, ∀ h, orderHeight ev = some h → h = H

/-- The machine waits for a new height. -/
structure Stuck (H : Nat) (n : NodeSys T) : Prop where
  smr : n.sys.smr.height = 0
  pos : 0 < H
  st : n.stQ = []
  evt : n.sys.evtQ = []
  armed : n.sys.armed = []
  notify : n.sys.notify = []
  trig : ∀ t ∈ n.sys.trigQ, H ≤ t.height

/-- A running node, after a restart from the record `w`. -/
def After (w : WalInfo T) (k : Nat) (n : NodeSys T) : Prop :=
  w.height < n.st.height ∨
  (n.st.height = w.height ∧ Live k (recPos w) n ∧ Filed n.st ∧ (Told w.height n ∨ Stuck w.height n))

/-- A node after a restart from the record `w`, running or not. -/
structure Anchored (w : WalInfo T) (k : Nat) (n : NodeSys T) : Prop where
  len : k ≤ n.log.length
  votes : ∀ v ∈ votesFrom k n, Pos.lt (recPos w) (votePos v)
  up : n.down = false → After w k n

theorem after_arm {w : WalInfo T} {k : Nat} {n n1 : NodeSys T} {a : Arm T} {e : Env T} {i : Input T} {cut : Option Nat}
    (h : Anchored w k n) (hd : n.down = false) (ht : n.take a = some (i, n1)) :
    Anchored w k (n1.took cut (runArm i e ⟨n.st, []⟩)) := by
  obtain ⟨hi, e1, e2, e3, e4⟩ := take_spec ht
  have hlog : (n1.took cut (runArm i e ⟨n.st, []⟩)).log = n.log ++ cutTo cut (runArm i e ⟨n.st, []⟩).2.log := by
    rw [← e1]; rfl
  have hlen : k ≤ (n1.took cut (runArm i e ⟨n.st, []⟩)).log.length := by
    rw [hlog, List.length_append]; have := h.len; omega
  -- in step
  have sync : n.st.height = w.height → (Told w.height n ∨ Stuck w.height n) → InSync n (.arm a e cut) := by
    intro hh hts
    cases a with
    | event =>
      intro ev q h' hq ho
      rcases hts with hts | hts
      · rw [hh]; exact hts.2 ev (by rw [hq]; simp) h' ho
      · rw [hts.st] at hq; cases hq
    | _ => trivial
  refine ⟨hlen, ?_, ?_⟩
  · intro v hv
    rw [votesFrom_append h.len hlog] at hv
    rcases List.mem_append.1 hv with hv | hv
    · exact h.votes v hv
    · have hv := votesOf_cut hv
      rcases h.up hd with hlt | ⟨hh, hl, hf, hts⟩
      · obtain ⟨_, _, ty, h0, r, hash, lr, _, hvv, _⟩ := arm_votes hi hv
        simp only [Pos.lt, recPos, votePos, hvv]; omega
      · exact live_votes hl (sync hh hts) ht hv
  · intro hup
    obtain ⟨rfl, hr⟩ := took_up hup
    have hst : (n1.took none (runArm i e ⟨n.st, []⟩)).st = (runArm i e ⟨n.st, []⟩).2.st := rfl
    have hle : n.st.height ≤ (runArm i e ⟨n.st, []⟩).2.st.height :=
      arm_state_inv (e := e) (i := i) (P := fun s => n.st.height ≤ s.height) (Nat.le_refl _)
        fun _ _ _ h hm => Nat.le_trans h (micro_height hi hm)
    rcases h.up hd with hlt | ⟨hh, hl, hf, hts⟩
    · exact .inl (by rw [hst]; omega)
    · by_cases heq : (runArm i e ⟨n.st, []⟩).2.st.height = w.height
      · right
        refine ⟨heq, (live_arm hl (sync hh hts) ht).1 hup, arm_filed hf, ?_⟩
        have hq : ∀ ev ∈ n1.stQ, ev ∈ n.stQ := by
          intro ev hev
          rcases e4 with ⟨e4, _⟩ | ⟨_, ev', _, e4⟩
          · rw [← e4]; exact hev
          · rw [e4]; exact List.mem_cons_of_mem _ hev
        have t1 : (n1.took none (runArm i e ⟨n.st, []⟩)).sys =
            { n.sys with trigQ := n.sys.trigQ ++ trigsOf (runArm i e ⟨n.st, []⟩).2.log } := by
          rw [← e3]; rfl
        rcases hts with hts | hts
        · left
          exact ⟨by rw [t1]; exact hts.1, fun ev hev => hts.2 ev (hq ev hev)⟩
        · right
          refine ⟨by rw [t1]; exact hts.smr, hts.pos, ?_, by rw [t1]; exact hts.evt, by rw [t1]; exact hts.armed,
            by rw [t1]; exact hts.notify, ?_⟩
          · refine List.eq_nil_iff_forall_not_mem.2 fun ev hev => ?_
            have := hq ev hev
            rw [hts.st] at this; cases this
          · rw [t1]
            intro t htm
            rcases List.mem_append.1 htm with htm | htm
            · exact hts.trig t htm
            · rw [← hh]; exact arm_trig_height hi hf (mem_trigsOf.1 htm)
      · left
        rw [hst]; omega

theorem after_act {addr : Address} {w : WalInfo T} {k : Nat} {n n' : NodeSys T} {a : NAct T} (h : Anchored w k n)
    (ok : RoundSmall n a) (hs : ∀ p e c, a ≠ .start p e c) (ha : n.act addr a = some n') : Anchored w k n' := by
  have up : a ≠ .crash → n.down = false := by
    intro h2
    cases hd : n.down with
    | false => rfl
    | true =>
      cases a with
      | start p e c => exact absurd rfl (hs p e c)
      | crash => exact absurd rfl h2
      | _ => simp [NodeSys.act, hd] at ha
  by_cases hc : a = .crash
  · subst hc
    simp only [NodeSys.act, Option.some.injEq] at ha
    subst ha
    exact ⟨h.len, h.votes, by simp⟩
  have hd := up hc
  by_cases harm : ∃ x e c, a = .arm x e c
  · obtain ⟨x, e, cut, rfl⟩ := harm
    simp only [NodeSys.act, hd, Bool.false_eq_true, if_false] at ha
    split at ha
    · cases ha
    · rename_i i n1 ht
      cases ha
      exact after_arm h hd ht
  -- the other steps
  have hframe : n'.log = n.log ∧ n'.st = n.st := by
    cases a with
    | start p e c => exact absurd rfl (hs p e c)
    | crash => exact absurd rfl hc
    | arm x e c => exact absurd ⟨x, e, c, rfl⟩ harm
    | smr =>
      simp only [NodeSys.act, hd, Bool.false_eq_true, if_false] at ha
      split at ha
      · cases ha
      · split at ha
        · cases ha
        · cases ha; exact ⟨rfl, rfl⟩
    | set =>
      simp only [NodeSys.act, hd, Bool.false_eq_true, if_false] at ha
      obtain ⟨sys, _, rfl⟩ := Option.map_eq_some_iff.1 ha
      exact ⟨rfl, rfl⟩
    | expire i =>
      simp only [NodeSys.act, hd, Bool.false_eq_true, if_false] at ha
      obtain ⟨sys, _, rfl⟩ := Option.map_eq_some_iff.1 ha
      exact ⟨rfl, rfl⟩
    | fire i =>
      simp only [NodeSys.act, hd, Bool.false_eq_true, if_false] at ha
      obtain ⟨sys, _, rfl⟩ := Option.map_eq_some_iff.1 ha
      exact ⟨rfl, rfl⟩
    | verifyDone c i =>
      simp only [NodeSys.act, hd, Bool.false_eq_true, if_false] at ha
      split at ha
      · cases ha
      · cases ha; exact ⟨rfl, rfl⟩
    | checkDone i okb =>
      simp only [NodeSys.act, hd, Bool.false_eq_true, if_false] at ha
      split at ha
      · cases ha
      · cases ha; exact ⟨rfl, rfl⟩
  refine ⟨by rw [hframe.1]; exact h.len, by unfold votesFrom; rw [hframe.1]; exact h.votes, fun _ => ?_⟩
  rcases h.up hd with hlt | ⟨hh, hl, hf, hts⟩
  · exact .inl (by rw [hframe.2]; exact hlt)
  · obtain ⟨_, _, _, hl'⟩ := live_other hl ok ha (fun x e c hx => harm ⟨x, e, c, hx⟩) hs hc
    refine .inr ⟨by rw [hframe.2]; exact hh, hl', by rw [hframe.2]; exact hf, ?_⟩
    cases a with
    | start p e c => exact absurd rfl (hs p e c)
    | crash => exact absurd rfl hc
    | arm x e c => exact absurd ⟨x, e, c, rfl⟩ harm
    | verifyDone c i =>
      simp only [NodeSys.act, hd, Bool.false_eq_true, if_false] at ha
      split at ha
      · cases ha
      · cases ha
        rcases hts with hts | hts
        · exact .inl hts
        · exact .inr ⟨hts.smr, hts.pos, hts.st, hts.evt, hts.armed, hts.notify, hts.trig⟩
    | checkDone i okb =>
      simp only [NodeSys.act, hd, Bool.false_eq_true, if_false] at ha
      split at ha
      · cases ha
      · cases ha
        rcases hts with hts | hts
        · exact .inl hts
        · exact .inr ⟨hts.smr, hts.pos, hts.st, hts.evt, hts.armed, hts.notify, hts.trig⟩
    | set =>
      simp only [NodeSys.act, hd, Bool.false_eq_true, if_false] at ha
      obtain ⟨sys, hsys, rfl⟩ := Option.map_eq_some_iff.1 ha
      simp only [TimerSys.act] at hsys
      rcases hts with hts | hts
      · left
        split at hsys
        · cases hsys
        · cases hsys
        · cases hsys; exact hts
      · rw [hts.evt] at hsys; cases hsys
    | expire i =>
      simp only [NodeSys.act, hd, Bool.false_eq_true, if_false] at ha
      obtain ⟨sys, hsys, rfl⟩ := Option.map_eq_some_iff.1 ha
      simp only [TimerSys.act] at hsys
      rcases hts with hts | hts
      · left
        split at hsys
        · cases hsys
        · cases hsys; exact hts
      · rw [hts.armed] at hsys; cases hsys
    | fire i =>
      simp only [NodeSys.act, hd, Bool.false_eq_true, if_false] at ha
      obtain ⟨sys, hsys, rfl⟩ := Option.map_eq_some_iff.1 ha
      simp only [TimerSys.act] at hsys
      rcases hts with hts | hts
      · left
        split at hsys
        · cases hsys
        · cases hsys; exact hts
      · rw [hts.notify] at hsys; cases hsys
    | smr =>
      simp only [NodeSys.act, hd, Bool.false_eq_true, if_false] at ha
      split at ha
      · cases ha
      · rename_i t q hq
        split at ha
        · cases ha
        · rename_i sys hsys
          cases ha
          have ht := hl.trig t (by rw [hq]; simp)
          have nohigh : ∀ st, t.triggerType ≠ .newHeight st := by
            intro st hst
            obtain ⟨a1, a2, _⟩ := ht.2 st hst
            simp only [recPos] at a2
            omega
          have hsys2 : sys = { n.sys with smr := (n.sys.smr.onTrigger t).next, trigQ := q,
                                          evtQ := n.sys.evtQ ++ (n.sys.smr.onTrigger t).outs.map Out.event } := by
            simp only [TimerSys.act, hq] at hsys
            split at hsys
            · cases hsys; rfl
            · cases hsys; rfl
            · cases hsys
            · cases hsys
          obtain ⟨g1, g2, g3⟩ := smr_heights (m := n.sys.smr) ht.1
          rcases hts with hts | hts
          · left
            have hsame : (n.sys.smr.onTrigger t).next.height = w.height := by
              rcases g3 with g3 | ⟨st, g3, _⟩
              · rw [g3]; exact hts.1
              · exact absurd g3 (nohigh st)
            refine ⟨by rw [hsys2]; exact hsame, fun ev hev h' ho => ?_⟩
            rcases List.mem_append.1 hev with hev | hev
            · exact hts.2 ev hev h' ho
            · rw [g2 ev hev h' ho]; exact hsame
          · right
            have htr := hts.trig t (by rw [hq]; simp)
            have hquiet : (n.sys.smr.onTrigger t).next = n.sys.smr ∧ (n.sys.smr.onTrigger t).outs = [] := by
              have hc := smr_case n.sys.smr t
              have hpos := hts.pos
              have hz := hts.smr
              have hend : t.triggerType ≠ .stop := by
                intro hst
                have : (n.sys.smr.onTrigger t).res = .ended := by simp [Smr.onTrigger, hst]
                simp [TimerSys.act, hq, this] at hsys
              generalize n.sys.smr.onTrigger t = o at *
              cases hc with
              | quiet res => exact ⟨rfl, rfl⟩
              | newHeight st hst => exact absurd hst (nohigh st)
              | wal w hw => exact absurd hw ht.1
              | stop hst => exact absurd hst hend
              | _ => omega
            refine ⟨by rw [hsys2]; dsimp only; rw [hquiet.1]; exact hts.smr, hts.pos, ?_, ?_, by rw [hsys2]; exact hts.armed,
              by rw [hsys2]; exact hts.notify, ?_⟩
            · rw [hquiet.2]; simp [hts.st]
            · rw [hsys2]; dsimp only; rw [hquiet.2]; simp [hts.evt]
            · rw [hsys2]; intro t' ht'; exact hts.trig t' (by rw [hq]; exact List.mem_cons_of_mem _ ht')

theorem new_power (addr : Address) (p : StartParams) :
    (State.new addr p.initHeight p.interval p.list : State T).consensusPower = (p.list.map Node.address |>.contains addr) := by
  have := update_contains p.list addr
  simp only [State.new]
  rw [Bool.eq_iff_iff, this, List.contains_iff_mem]

/-- A start releases no votes. -/
theorem start_votes {e : Env T} {s : State T} {w : World T} (o : StartOut e s w) : votesOf w.log = [] := by
  cases o with
  | commit b rec pr lock hp hl hdec hx hst hlk o => exact commit_votes o
  | brake b rec pr hp hl hdec hx hst w1 o hw =>
    have : votesOf w1.log = [] := by
      rw [votesOf_obs]
      rcases o.out with ho | ⟨lk, _, ho⟩ <;> rw [ho] <;> rfl
    rcases hw with rfl | rfl
    · exact this
    · rw [votesOf_append, this]; rfl
  | idle hw h => rw [hw]; rfl
  | fresh hp hl hh hw => rw [hw]; rfl
  | noLeader b rec x hp hl hdec hx hw => rw [hw]; rfl
  | noLock b rec pr hp hl hdec hx hst hlk hw => rw [hw]; rfl
  | resume b rec pr hp hl hdec hx hst hsb hw => rw [hw]; rfl

/-- Where a start from the record `w` leads. -/
inductive StartTo (addr : Address) (p : StartParams) (log : List (Effect T)) (w : WalInfo T) (res : World T) : Prop
  /-- the voting state machine takes over the record -/
  | told (evt) (hst : res.st.height = w.height ∧ res.st.round = w.round) (hc : w.step ≠ .commit)
      (h : NodeSys.started addr p log res =
        { (NodeSys.fresh addr p log).absorb res.log with
          sys := { (NodeSys.fresh addr p log : NodeSys T).sys with
                   trigQ := [], smr := (Smr.init.handleWal w.intoSmrBase).next, evtQ := evt }
          st := res.st, down := false })
  /-- the voting state machine waits for a new height -/
  | stuck (hst : res.st.height = w.height ∧ res.st.round = w.round)
      (h : NodeSys.started addr p log res =
        { (NodeSys.fresh addr p log).absorb res.log with
          sys := { (NodeSys.fresh addr p log : NodeSys T).sys with trigQ := [] }, st := res.st, down := false })
  /-- the record's commit leads to a new height -/
  | moved (hc : w.step = .commit) (hst : w.height < res.st.height)
      (ht : trigsOf res.log = [] ∨ ∃ st, trigsOf res.log = [stTrigger (.newHeight st) [] none INIT_ROUND res.st.height] ∧
        st.height = res.st.height)

theorem start_to {addr : Address} {p : StartParams} {log : List (Effect T)} {e : Env T} {w : WalInfo T} {b : Bytes} {res : World T}
    (hl : (p.list.map Node.address).contains addr = true) (hb : e.walLoad = some (some b)) (hw : decWalInfo b = .ok w)
    (h0 : w.height ≠ 0)
    (o : StartOut e (State.new addr p.initHeight p.interval p.list) res)
    (hd : (NodeSys.started addr p log res).down = false) : StartTo addr p log w res := by
  have hpow : (State.new addr p.initHeight p.interval p.list : State T).consensusPower = true := by rw [new_power, hl]
  generalize hS : State.new addr p.initHeight p.interval p.list = S at *
  have quiet : ∀ l : List (Effect T), trigsOf l = [] → ∀ s : State T, NodeSys.started addr p log ⟨s, l⟩ =
        { (NodeSys.fresh addr p log).absorb l with
          sys := { (NodeSys.fresh addr p log : NodeSys T).sys with trigQ := [] }, st := s, down := false } := by
    intro l hl s; unfold NodeSys.started; dsimp only; rw [hl]; rfl
  cases o with
  | idle hw' h =>
    exfalso
    rcases h hpow with (h | ⟨b', x, h, h'⟩) | h
    · rw [hb] at h; cases h
    · rw [hb] at h; cases h; rw [hw] at h'; cases h'
    · rw [hb] at h; cases h.1
  | fresh hp hl' => rw [hb] at hl'; cases hl'
  | noLeader b' rec x hp hl' hdec hx hw' =>
    rw [hb] at hl'; cases hl'; rw [hw] at hdec; cases hdec
    subst hw'
    exact .stuck ⟨rfl, rfl⟩ (quiet _ rfl _)
  | noLock b' rec pr hp hl' hdec hx hst hlk hw' =>
    rw [hb] at hl'; cases hl'; rw [hw] at hdec; cases hdec
    subst hw'
    obtain ⟨r1, r2, _⟩ := restored_pos S w pr
    exact .stuck ⟨r1, r2⟩ (quiet _ rfl _)
  | commit b' rec pr lock hp hl' hdec hx hst hlk o =>
    rw [hb] at hl'; cases hl'; rw [hw] at hdec; cases hdec
    obtain ⟨r1, r2, _⟩ := restored_pos S w pr
    cases o with
    | none => exact .stuck ⟨r1, r2⟩ (quiet _ rfl _)
    | lost content qc => exact .stuck ⟨r1, r2⟩ (quiet _ rfl _)
    | failed content qc => exact .stuck ⟨r1, r2⟩ (quiet _ rfl _)
    | stuck content qc status x => exact .stuck ⟨r1, r2⟩ (quiet _ rfl _)
    | done content qc status w2 hb hq hs hc hm =>
      cases hm with
      | stay hh => exact .stuck ⟨r1, r2⟩ (quiet _ rfl _)
      | away hh hp => exact .moved hst (by rw [← r1]; exact hh) (.inl rfl)
      | lost hh hp => exact .moved hst (by rw [← r1]; exact hh) (.inl rfl)
      | adopt hh hp =>
        refine .moved hst (by rw [← r1]; exact hh) (.inr ⟨status.toSMR, ?_, rfl⟩)
        have : ∀ (l : List (OverlordMsg T)) (a : Authority), trigsOf (l.map fun m => Effect.spawnVerify m a) = [] := by
          intro l a; induction l with
          | nil => rfl
          | cons x l ih => simp [trigsOf]
        have c : ∀ (x : Effect T) l, trigsOf (x :: l) = trigsOf [x] ++ trigsOf l := fun x l => trigsOf_append [x] l
        dsimp only
        rw [trigsOf_append, List.cons_append, c _ (_ ++ _), trigsOf_append, this]
        rfl
  | brake b' rec pr hp hl' hdec hx hst w1 o hw' =>
    rw [hb] at hl'; cases hl'; rw [hw] at hdec; cases hdec
    obtain ⟨r1, r2, _⟩ := restored_pos S w pr
    have hts : ∀ t ∈ trigsOf w1.log, t.triggerType = .continueRound ∧ t.height ≠ 0 := by
      intro t ht
      obtain ⟨a, b⟩ := o.trigs t (mem_trigsOf.1 ht)
      exact ⟨a, by rw [b, r1]; exact h0⟩
    have hpos : w1.st.height = w.height ∧ w1.st.round = w.round := ⟨o.same.height.trans r1, o.round.trans r2⟩
    rcases hw' with rfl | rfl
    · refine .stuck hpos ?_
      have hdr := drain_idle (trigsOf res.log) [] ({ (NodeSys.fresh addr p log).absorb res.log with
        sys := { (NodeSys.fresh addr p log : NodeSys T).sys with trigQ := [] }, st := res.st, down := false } : NodeSys T)
        hts (by rw [List.append_nil]; exact hd)
      rw [List.append_nil] at hdr
      exact hdr
    · have hts2 : trigsOf (w1.log ++ [.trigger (walTrig w.intoSmrBase)]) = trigsOf w1.log ++ [walTrig w.intoSmrBase] := by
        rw [trigsOf_append]; rfl
      unfold NodeSys.started at hd
      dsimp only at hd
      rw [hts2] at hd
      have hdr := drain_idle _ _ _ hts hd
      obtain ⟨evt, hdw⟩ := drain_wal ({ (NodeSys.fresh addr p log).absorb (w1.log ++ [.trigger (walTrig w.intoSmrBase)]) with
        sys := { (NodeSys.fresh addr p log : NodeSys T).sys with trigQ := [] }, st := w1.st, down := false } : NodeSys T)
        w.intoSmrBase (by simp [WalInfo.intoSmrBase, hst])
      refine .told evt hpos (by simp [hst]) ?_
      unfold NodeSys.started
      dsimp only
      rw [hts2, hdr, hdw]
      rfl
  | resume b' rec pr hp hl' hdec hx hst hsb hw' =>
    rw [hb] at hl'; cases hl'; rw [hw] at hdec; cases hdec
    subst hw'
    obtain ⟨r1, r2, _⟩ := restored_pos S w pr
    obtain ⟨evt, hdw⟩ := drain_wal ({ (NodeSys.fresh addr p log).absorb [.trigger (walTrig w.intoSmrBase)] with
        sys := { (NodeSys.fresh addr p log : NodeSys T).sys with trigQ := [] }, st := S.restored w pr, down := false } : NodeSys T)
        w.intoSmrBase (by simp [WalInfo.intoSmrBase, hst])
    exact .told evt ⟨r1, r2⟩ hst hdw

theorem start_anchored {addr : Address} {n n' : NodeSys T} {p : StartParams} {e : Env T} {cut : Option Nat} {w : WalInfo T} {b : Bytes}
    (hl : (p.list.map Node.address).contains addr = true) (hb : e.walLoad = some (some b)) (hw : decWalInfo b = .ok w)
    (h0 : w.height ≠ 0) (ha : n.act addr (.start p e cut) = some n') : Anchored w n.log.length n' := by
  obtain ⟨hd, hc⟩ := start_act ha
  have o := start_out e (State.new addr p.initHeight p.interval p.list)
  have hv := start_votes o
  rcases hc with ⟨h1, h2⟩ | ⟨h1, h2, h3, h4⟩
  · refine ⟨by rw [h2, List.length_append]; omega, fun v hvv => ?_, fun hf => by rw [h1] at hf; cases hf⟩
    unfold votesFrom at hvv
    rw [h2, List.drop_left] at hvv
    have := votesOf_cut hvv
    rw [hv] at this; cases this
  · refine ⟨by rw [h3, List.length_append]; omega, fun v hvv => ?_, fun hf => ?_⟩
    · unfold votesFrom at hvv
      rw [h3, List.drop_left, hv] at hvv
      cases hvv
    · have hfiled : Filed (runArm .start e ⟨State.new addr p.initHeight p.interval p.list, []⟩).2.st :=
        arm_filed (Store.new ..)
      generalize (runArm .start e ⟨State.new addr p.initHeight p.interval p.list, []⟩).2 = res at *
      have hf' := hf
      rw [h4] at hf'
      have hlive : Live n.log.length (recPos w) (NodeSys.started addr p n.log res) :=
        start_live (Nat.le_refl _) (.inr (.inr ⟨hl, w, b, hb, hw, h0, Pos.le_refl _, by rw [List.drop_length]; simp [votesOf]⟩))
          (by rw [List.drop_length]; simp [votesOf]) o hf'
      rw [h4]
      have hst : (NodeSys.started addr p n.log res).st = res.st := by unfold NodeSys.started; rw [drain_st]
      cases start_to hl hb hw h0 o hf' with
      | told evt hpos hc heq =>
        refine .inr ⟨by rw [hst]; exact hpos.1, hlive, by rw [hst]; exact hfiled, .inl ?_⟩
        rw [heq]
        refine ⟨?_, fun ev hev => by cases hev⟩
        show (Smr.init.handleWal w.intoSmrBase).next.height = w.height
        unfold Smr.handleWal; dsimp only; split <;> rfl
      | stuck hpos heq =>
        refine .inr ⟨by rw [hst]; exact hpos.1, hlive, by rw [hst]; exact hfiled, .inr ?_⟩
        rw [heq]
        exact ⟨rfl, Nat.pos_of_ne_zero h0, rfl, rfl, rfl, rfl, fun t ht => by cases ht⟩
      | moved hc hlt _ => exact .inl (by rw [hst]; exact hlt)

/-! ## Logs and states of whole lives -/

/-- Each step either leaves log and State as they are, or handles one input. -/
theorem act_log {addr : Address} {n n' : NodeSys T} {a : NAct T} (ha : n.act addr a = some n') :
    (n'.log = n.log ∧ (n'.down = false → n.down = false ∧ n'.st = n.st)) ∨
    ∃ i e cut s, n'.log = n.log ++ cutTo cut (runArm i e ⟨s, []⟩).2.log ∧
      (n'.down = false → cut = none ∧ n'.st = (runArm i e ⟨s, []⟩).2.st) ∧
      ((n.down = false ∧ s = n.st ∧ i ≠ .start ∧ ∃ x n1, n.take x = some (i, n1) ∧ a = .arm x e cut) ∨
        (n.down = true ∧ i = .start ∧ ∃ p, a = .start p e cut ∧ s = State.new addr p.initHeight p.interval p.list)) := by
  cases a with
  | start p e cut =>
    obtain ⟨hd, hc⟩ := start_act ha
    right
    refine ⟨.start, e, cut, State.new addr p.initHeight p.interval p.list, ?_, ?_, .inr ⟨hd, rfl, p, rfl, rfl⟩⟩
    · rcases hc with ⟨_, h2⟩ | ⟨_, h2, h3, _⟩
      · exact h2
      · rw [h2]; exact h3
    · intro hf
      rcases hc with ⟨h1, _⟩ | ⟨_, h2, h3, h4⟩
      · rw [h1] at hf; cases hf
      · refine ⟨h2, ?_⟩
        rw [h4]; unfold NodeSys.started; rw [drain_st]
  | crash =>
    simp only [NodeSys.act, Option.some.injEq] at ha
    subst ha
    exact .inl ⟨rfl, by simp⟩
  | arm x e cut =>
    simp only [NodeSys.act] at ha
    split at ha
    · cases ha
    · rename_i hd
      split at ha
      · cases ha
      · rename_i i n1 ht
        cases ha
        obtain ⟨hi, e1, e2, e3, e4⟩ := take_spec ht
        right
        refine ⟨i, e, cut, n.st, ?_, ?_, .inl ⟨(Bool.not_eq_true _).mp hd, rfl, hi, x, n1, ht, rfl⟩⟩
        · rw [← e1]; rfl
        · intro hup
          exact ⟨(took_up hup).1, rfl⟩
  | smr =>
    simp only [NodeSys.act] at ha
    split at ha
    · cases ha
    · split at ha
      · cases ha
      · split at ha
        · cases ha
        · cases ha; exact .inl ⟨rfl, fun h => ⟨h, rfl⟩⟩
  | set =>
    simp only [NodeSys.act] at ha
    split at ha
    · cases ha
    · obtain ⟨sys, _, rfl⟩ := Option.map_eq_some_iff.1 ha
      exact .inl ⟨rfl, fun h => ⟨h, rfl⟩⟩
  | expire i =>
    simp only [NodeSys.act] at ha
    split at ha
    · cases ha
    · obtain ⟨sys, _, rfl⟩ := Option.map_eq_some_iff.1 ha
      exact .inl ⟨rfl, fun h => ⟨h, rfl⟩⟩
  | fire i =>
    simp only [NodeSys.act] at ha
    split at ha
    · cases ha
    · obtain ⟨sys, _, rfl⟩ := Option.map_eq_some_iff.1 ha
      exact .inl ⟨rfl, fun h => ⟨h, rfl⟩⟩
  | verifyDone c i =>
    simp only [NodeSys.act] at ha
    split at ha
    · cases ha
    · split at ha
      · cases ha
      · cases ha; exact .inl ⟨rfl, fun h => ⟨h, rfl⟩⟩
  | checkDone i okb =>
    simp only [NodeSys.act] at ha
    split at ha
    · cases ha
    · split at ha
      · cases ha
      · cases ha; exact .inl ⟨rfl, fun h => ⟨h, rfl⟩⟩

/-- States of running nodes are filed properly. -/
theorem node_filed {addr : Address} {as : List (NAct T)} {n : NodeSys T} (h : (NodeSys.new addr).run addr as = some n) :
    n.down = false → Filed n.st := by
  refine life_inv (P := fun _ n => n.down = false → Filed n.st) (by simp [NodeSys.new, NodeSys.fresh]) ?_ as n h
  intro as n a n' _ ih ha hup
  rcases act_log ha with ⟨_, h2⟩ | ⟨i, e, cut, s, _, h2, h3⟩
  · rw [(h2 hup).2]; exact ih (h2 hup).1
  · rw [(h2 hup).2]
    refine arm_filed ?_
    rcases h3 with ⟨hd, rfl, _⟩ | ⟨_, _, p, _, rfl⟩
    · exact ih hd
    · exact Store.new ..

theorem Preceded.take {needs : Effect T → Prop} {R : Effect T → Effect T → Prop} {l : List (Effect T)}
    (h : Preceded needs R l) (cut : Option Nat) : Preceded needs R (cutTo cut l) := by
  cases cut with
  | none => exact h
  | some k =>
    intro a x b he hn
    refine h a x (b ++ l.drop k) ?_ hn
    have := List.take_append_drop k l
    have he' : l.take k = a ++ x :: b := he
    rw [he'] at this
    simpa using this.symm

end Overlord
