import Verif.Proofs.MicroRun2
import Verif.Spec.State

/-! Exact outcomes of the handlers that move a node: commit and start. -/

set_option linter.unusedSimpArgs false
set_option linter.unusedVariables false
set_option linter.unusedSectionVars false

namespace Overlord
open M

variable {T : Type} [ContentCodec T] [DecidableEq T]

/-- The WAL record of a commit. -/
def commitRec (s : State T) (qc : AggregatedVote) (content : T) : WalInfo T :=
  walRec s .commit (some { lockRound := s.round, lockVotes := qc, content := content })

/-- All outcomes of `handle_commit`. -/
theorem wp_handleCommit {e : Env T} {s : State T} {l : List (Effect T)} {hash : Hash}
    {Q : Unit → World T → Prop} {E : Err → World T → Prop}
    (h0 : (∀ content qc, s.hashWithBlock.get? hash = some content →
      s.votes.getQcByHash s.height hash .precommit = some qc → encWalInfo (commitRec s qc content) = none) →
      ∀ x, E x ⟨s, l⟩)
    (h1 : ∀ content qc, s.hashWithBlock.get? hash = some content →
      s.votes.getQcByHash s.height hash .precommit = some qc → Saved e (commitRec s qc content) false →
      E .saveWalErr ⟨s, l ++ [.saveWal (commitRec s qc content) false]⟩)
    (h2 : ∀ content qc, s.hashWithBlock.get? hash = some content →
      s.votes.getQcByHash s.height hash .precommit = some qc → Saved e (commitRec s qc content) true →
      e.commit s.height (mkCommit s hash content qc) = none →
      E .other ⟨s, l ++ [.saveWal (commitRec s qc content) true,
        .commitCall s.height (mkCommit s hash content qc) none]⟩)
    (h3 : ∀ content qc status, s.hashWithBlock.get? hash = some content →
      s.votes.getQcByHash s.height hash .precommit = some qc → Saved e (commitRec s qc content) true →
      e.commit s.height (mkCommit s hash content qc) = some status →
      let l' := l ++ [.saveWal (commitRec s qc content) true,
        .commitCall s.height (mkCommit s hash content qc) (some status)]
      let s' := { s with authority := Authority.update status.authorityList }
      (∀ x, s'.authority.getProposer e.mode status.height INIT_ROUND = .error x → E x ⟨s', l'⟩) ∧
      (status.height ≤ s.height → Q () ⟨s', l'⟩) ∧
      (s.height < status.height → status.isConsensusNode s.address = false → Q () ⟨s'.moved status, l'⟩) ∧
      (s.height < status.height → status.isConsensusNode s.address = true →
        Saved e (walRec (s'.moved status) .propose none) false →
        E .saveWalErr ⟨s'.moved status, l' ++ [.saveWal (walRec (s'.moved status) .propose none) false]⟩) ∧
      (s.height < status.height → status.isConsensusNode s.address = true →
        Saved e (walRec (s'.moved status) .propose none) true →
        Q () ⟨s'.adopted e.sh status, l' ++
          (.saveWal (walRec (s'.moved status) .propose none) true ::
            ((s'.recheck e.sh status).map fun m => .spawnVerify m (Authority.update status.authorityList)) ++
            [.trigger (stTrigger (.newHeight status.toSMR) [] none INIT_ROUND status.height)])⟩)) :
    wp (handleCommit hash) e ⟨s, l⟩ Q E := by
  unfold handleCommit
  wps
  refine ⟨fun content hb => ⟨fun qc hq => ?_, fun hn => h0 (fun c q h1 h2 => ?_) _⟩, fun hn => h0 (fun c q h1 h2 => ?_) _⟩
  rotate_left
  · rw [hn] at h2; cases h2
  · rw [hn] at h1; cases h1
  refine wp_saveWal (fun hn => h0 (fun c q h1 h2 => ?_) _) (fun b e1 e2 => h1 content qc hb hq ⟨b, e1, e2⟩) (fun b e1 e2 => ?_)
  · rw [hb] at h1; rw [hq] at h2; cases h1; cases h2; exact hn
  refine ⟨fun status hs => ?_, fun hs => ?_⟩
  · obtain ⟨g1, g2, g3, g5, g6⟩ := h3 content qc status hb hq ⟨b, e1, e2⟩ hs
    unfold nextProposer
    wps
    have hl : ∀ (s' : State T), (⟨s', l ++ [.saveWal (walRec s .commit (some { lockRound := s.round, lockVotes := qc, content := content })) true] ++
        [.commitCall s.height (mkCommit s hash content qc) (e.commit s.height (mkCommit s hash content qc))]⟩ : World T) =
        ⟨s', l ++ [.saveWal (commitRec s qc content) true,
        .commitCall s.height (mkCommit s hash content qc) (some status)]⟩ := by
      intro s'
      have hs' : e.commit s.height (mkCommit s hash content qc) = some status := hs
      simp [commitRec, hs']
    refine ⟨fun p hp => ?_, fun x hx => ?_⟩
    · simp only [mkCommit] at hl
      rw [hl]
      refine wp_gotoNewHeight g2 g3 (fun _ _ hn => by cases hn) (fun b a c d f => g5 a c ⟨b, d, f⟩)
        (fun b a c d f => g6 a c ⟨b, d, f⟩)
    · simp only [mkCommit] at hl
      rw [hl]
      exact g1 x hx
  · have := h2 content qc hb hq ⟨b, e1, e2⟩ hs
    simp only [mkCommit] at this hs
    simpa [commitRec, hs] using this

/-- A node restored from a record. -/
def State.restored (s : State T) (w : WalInfo T) (p : Address) : State T :=
  let s1 : State T := { s with height := w.height, round := w.round, isLeader := decide (p = s.address),
                               leaderAddress := p, updateFrom := w.from }
  match w.lock with
  | none => s1
  | some lock => { s1 with votes := s1.votes.setQc lock.lockVotes,
                           hashWithBlock := s1.hashWithBlock.insert lock.lockVotes.blockHash lock.content }

/-- All outcomes of `start_with_wal`, up to those of `handle_commit` and `handle_brake`. -/
theorem wp_start {e : Env T} {s : State T} {Q : Unit → World T → Prop} {E : Err → World T → Prop}
    (h0 : s.consensusPower = false → Q () ⟨s, []⟩)
    (h1 : s.consensusPower = true → e.walLoad = none ∨ (∃ b x, e.walLoad = some (some b) ∧
      decWalInfo (T := T) b = .error x) → ∀ x, E x ⟨s, []⟩)
    (h2 : s.consensusPower = true → e.walLoad = some none → s.height = INIT_HEIGHT → Q () ⟨s, []⟩)
    (h3 : s.consensusPower = true → e.walLoad = some none → s.height ≠ INIT_HEIGHT →
      Q () ⟨s, [.trigger (walTrig { height := s.height, round := s.round, step := .propose, polc := none })]⟩)
    (h4 : ∀ b w, s.consensusPower = true → e.walLoad = some (some b) → decWalInfo b = .ok w →
      (∀ x, E x ⟨{ s with height := w.height, round := w.round }, []⟩) ∧
      ∀ p, s.authority.getProposer e.mode w.height w.round = .ok p →
        (w.step = .commit → w.lock = none → E .loadWalErr ⟨s.restored w p, []⟩) ∧
        (∀ lock, w.step = .commit → w.lock = some lock →
          wp (handleCommit lock.lockVotes.blockHash) e ⟨s.restored w p, []⟩ Q E) ∧
        (w.step = .brake → wp (handleBrake w.round (w.lock.map WalLock.lockRound)) e ⟨s.restored w p, []⟩
          (fun _ w' => Q () ⟨w'.st, w'.log ++ [.trigger (walTrig w.intoSmrBase)]⟩) E) ∧
        (w.step ≠ .commit → w.step ≠ .brake →
          Q () ⟨s.restored w p, [.trigger (walTrig w.intoSmrBase)]⟩)) :
    wp startWithWal e ⟨s, []⟩ Q E := by
  unfold startWithWal
  rw [wp_bind, wp_get, wp_ite]
  refine ⟨h0, fun hp => ?_⟩
  have hp := (Bool.not_eq_false _).mp hp
  rw [wp_bind]
  unfold loadWal
  rw [wp_bind, wp_ask]
  split
  · rename_i hl
    exact h1 hp (.inl hl) _
  · rename_i hl
    wps [walLost]
    exact ⟨fun hh => h3 hp hl hh, fun hh => h2 hp hl (Decidable.not_not.1 hh)⟩
  · rename_i b hl
    split
    · rename_i w hd
      obtain ⟨g1, g2⟩ := h4 b w hp hl hd
      wps
      refine wp_isProposer (fun _ => g1 _) fun p hpr => ?_
      obtain ⟨k1, k2, k3, k4⟩ := g2 p hpr
      unfold State.restored at k1 k2 k3 k4
      cases hk : w.lock with
      | none =>
        rw [hk] at k1 k2 k3 k4
        wps
        exact ⟨fun hc => k1 hc rfl, fun hc => ⟨fun hb => k3 hb, fun hb => k4 hc hb⟩⟩
      | some lock =>
        rw [hk] at k1 k2 k3 k4
        wps
        exact ⟨fun hc => k2 lock hc rfl, fun hc => ⟨fun hb => k3 hb, fun hb => k4 hc hb⟩⟩
    · rename_i hd
      exact h1 hp (.inr ⟨b, _, hl, hd⟩) _
    · rename_i hd
      exact h1 hp (.inr ⟨b, _, hl, hd⟩) _

end Overlord
