import Verif.Proofs.MicroRun

/-! Every arm of the State's loop is a sequence of micro-steps (continued). -/

set_option linter.unusedSimpArgs false
set_option linter.unusedVariables false
set_option linter.unusedSectionVars false

namespace Overlord
open M

variable {T : Type} [ContentCodec T] [DecidableEq T]

theorem wp_and {α : Type} {m : M T α} {e : Env T} {w : World T} {Q Q' : α → World T → Prop}
    {E E' : Err → World T → Prop} (h : wp m e w Q E) (h' : wp m e w Q' E') :
    wp m e w (fun a w => Q a w ∧ Q' a w) (fun x w => E x w ∧ E' x w) := by
  unfold wp at *
  split
  · rename_i h1; rw [h1] at h h'; exact ⟨h, h'⟩
  · rename_i h1; rw [h1] at h h'; exact ⟨h, h'⟩

/-- Frame: the fields a run of micro-steps leaves. -/
theorem walk_newRound {e : Env T} {i : Input T} {w0 : World T} {s : State T} {l : List (Effect T)}
    {r : Nat} {lr : Option Nat} {lp : Option Hash} {f : FromWhere} (h : Runs e i w0 ⟨s, l⟩)
    (hi : NewRoundInput i r lr lp f) : Walks e i w0 (handleNewRound r lr lp f) ⟨s, l⟩ := by
  have h1 : Runs e i w0 ⟨{ s with round := r, isLeader := false }, l ++ (if r = INIT_ROUND then [] else
          [.reportViewChange s.height s.round (s.viewChangeReason s.round f)])⟩ :=
    h.stepTo (.enterRound s r lr lp f hi) rfl
  have key : ∀ l', Runs e i w0 ⟨{ s with round := r, isLeader := false }, l'⟩ →
      Walks e i w0 (do
        if lr.isSome ≠ lp.isSome then fail .proposalErr
        else
          setUpdateFrom f
          saveWalWithLockRound .propose lr
          if (← isProposer) = false then
            let s ← get
            match s.proposals.get s.height s.round with
            | .ok sp => handleSignedProposal sp
            | .error _ => pure ()
          else
            modify fun s => { s with isLeader := true }
            let (block, hash, polc) ← proposalParts lr lp
            modify fun s => { s with hashWithBlock :=
              match s.hashWithBlock.get? hash with
              | some _ => s.hashWithBlock
              | none => s.hashWithBlock.insert hash block }
            let s ← get
            let sp ← signProposal { height := s.height, round := s.round, content := block,
                                    blockHash := hash, lock := polc, proposer := s.address }
            broadcast (.signedProposal sp)
            emit (.trigger (stTrigger .proposal hash lr s.round s.height))
            checkBlock hash block) ⟨{ s with round := r, isLeader := false }, l'⟩ := by
    clear h1 h
    intro l' h
    unfold Walks
    rw [wp_ite]
    refine ⟨fun _ => h, fun hs => ?_⟩
    have hs : lr.isSome = lp.isSome := Decidable.not_not.1 hs
    rw [wp_bind]
    refine wp_setUpdateFrom (fun _ => h) fun u hu => ?_
    have h2 := h.step0 (.setFrom _ u r lr lp f hi hu)
    clear h
    rw [wp_bind]
    have hwal : ∀ lock ok, Saved e (walRec ({ s with round := r, isLeader := false, updateFrom := u } : State T) .propose lock) ok →
        WalLockOf ({ s with round := r, isLeader := false, updateFrom := u } : State T) lr lock →
        Runs e i w0 ⟨{ s with round := r, isLeader := false, updateFrom := u }, l' ++
          [.saveWal (walRec { s with round := r, isLeader := false, updateFrom := u } .propose lock) ok]⟩ :=
      fun lock ok hsv hl => h2.stepTo (.wal _ .propose lr lock ok hsv hl (.inl ⟨rfl, r, lp, f, hi, hs, rfl⟩)) rfl
    refine wp_saveWalLR (fun _ => h2) (fun lock b hl e1 e2 => hwal lock false ⟨b, e1, e2⟩ hl) (fun lock b hl e1 e2 => ?_)
    have h3 := hwal lock true ⟨b, e1, e2⟩ hl
    generalize (l' ++ [Effect.saveWal _ true]) = l'' at h3
    clear hwal h2
    rw [wp_bind]
    refine wp_isProposer (fun _ => h3) fun p hp => ?_
    have h4 := h3.step0 (.leader _ p _ ⟨r, lr, lp, f, hi⟩ hp rfl)
    clear h3
    rw [wp_ite]
    refine ⟨fun hb => ?_, fun hb => ?_⟩
    · wps
      split
      · rename_i sp hsp
        exact walk_signedProposal h4 (.inr ⟨⟨r, lr, lp, f, hi⟩, hsp⟩)
      · exact h4
    · have hb : p = s.address := by simpa using hb
      subst hb
      simp only [decide_true] at h4 ⊢
      wps
      unfold proposalParts
      cases lr with
      | none =>
        wps
        have h5 := h4.stepTo (Micro.askBlock _ ⟨r, lp, f, hi⟩) rfl
        refine ⟨fun bh hbh => ?_, fun _ => h5⟩
        obtain ⟨block, hash⟩ := bh
        wps [signProposal, broadcast, checkBlock]
        have fin : ∀ s' l', Runs e i w0 ⟨s', l'⟩ → s'.height = s.height → s'.round = r →
            s'.authority = s.authority → s'.address = s.address → (∃ c, s'.hashWithBlock.get? hash = some c) →
            (∀ b, encProposal (⟨s.height, r, block, hash, none, s.address⟩ : Proposal T) = some b →
              (∀ sig, e.crypto.sign (e.crypto.hash b) = some sig →
                Runs e i w0 ⟨s', l' ++ [.broadcast (.signedProposal ⟨sig, ⟨s.height, r, block, hash, none, s.address⟩⟩)] ++
                  [.trigger (stTrigger .proposal hash none r s.height)] ++ [.spawnCheck s.height r hash block]⟩)) := by
          intro s' l' hr e1 e2 e3 e4 hk b hb sig hsig
          have hlead : s'.authority.getProposer e.mode s'.height s'.round = .ok s'.address := by
            rw [e1, e2, e3, e4]; exact hp
          have := hr.stepTo (Micro.propose s' ⟨sig, ⟨s.height, r, block, hash, none, s.address⟩⟩ r none lp f hi e2.symm
            hlead e1.symm e2.symm e4.symm ⟨rfl, by rw [e1]; exact hbh⟩ ⟨b, hb, hsig⟩ hk) rfl
          rw [e1, e2] at this
          simpa using this
        cases hget : s.hashWithBlock.get? hash with
        | some _ =>
          dsimp only
          exact ⟨fun b hb => ⟨fun sig hsig => fin _ _ h5 rfl rfl rfl rfl ⟨_, hget⟩ b hb sig hsig, fun _ => h5⟩, fun _ => h5⟩
        | none =>
          have h6 := h4.stepTo (Micro.ownBlock _ hash block ⟨r, none, lp, f, hi⟩ hget hbh) (by
            show _ = _ ++ [Effect.getBlock s.height (some (block, hash))]
            rw [← hbh])
          dsimp only
          exact ⟨fun b hb => ⟨fun sig hsig => fin _ _ h6 rfl rfl rfl rfl ⟨_, by dsimp only; rw [AMap.get?_insert, if_pos rfl]⟩ b hb sig hsig, fun _ => h6⟩, fun _ => h6⟩
      | some k =>
        wps
        refine ⟨fun hash hlp => ⟨fun b hget => ?_, fun _ => h4⟩, fun _ => h4⟩
        split
        · rename_i qc hq
          wps [signProposal, broadcast, checkBlock, hget]
          refine ⟨fun b' hb => ⟨fun sig hsig => ?_, fun _ => h4⟩, fun _ => h4⟩
          have := h4.stepTo (Micro.propose _ ⟨sig, ⟨s.height, r, b, hash, some ⟨k, qc⟩, s.address⟩⟩ r (some k) lp f hi rfl
            hp rfl rfl rfl ⟨hlp, hget, qc, hq, rfl⟩ ⟨b', hb, hsig⟩ ⟨_, hget⟩) rfl
          simpa using this
        · exact h4
  unfold Walks handleNewRound
  rw [wp_bind, wp_get]
  by_cases hr : r = INIT_ROUND
  · simp only [hr, if_true, List.append_nil] at h1
    have := key l (hr ▸ h1)
    rw [hr] at this
    simp only [hr, ne_eq, not_true_eq_false, if_false]
    rw [wp_bind, wp_modify]
    exact this
  · simp only [hr, if_false] at h1
    have := key _ h1
    simp only [hr, ne_eq, not_false_eq_true, if_true, reportViewChange]
    rw [wp_bind, wp_bind, wp_get, wp_emit, wp_bind, wp_modify]
    exact this

theorem walk_voteEvent {e : Env T} {i : Input T} {w0 : World T} {s : State T} {l : List (Effect T)}
    {hash : Hash} {ty : VoteType} {lr : Option Nat} (h : Runs e i w0 ⟨s, l⟩)
    (hi : VoteInput i ty hash lr) : Walks e i w0 (handleVoteEvent hash ty lr) ⟨s, l⟩ := by
  unfold Walks handleVoteEvent signVote
  wps
  refine ⟨fun sig hsig => ?_, fun _ => h⟩
  refine wp_saveWalLR (fun _ => h) (fun lock b hl e1 e2 => ?_) (fun lock b hl e1 e2 => ?_)
  · exact h.stepTo (.wal s ty.toStep lr lock false ⟨b, e1, e2⟩ hl (.inr ⟨rfl, .inl ⟨ty, hash, hi, rfl⟩⟩)) rfl
  · have h1 := h.stepTo (.castVote s ty hash lr lock
      { voter := s.address, signature := sig,
        vote := { height := s.height, round := s.round, voteType := ty, blockHash := hash } }
      ⟨b, e1, e2⟩ hi hl rfl rfl hsig) rfl
    refine ⟨fun hlead => ?_, fun hlead => ?_⟩
    · simp only [hlead, if_true] at h1
      refine walk_voteProcess ?_ (fun _ => ⟨hash, lr, hi⟩)
      simpa [hlead] using h1
    · have hlead := (Bool.not_eq_true _).mp hlead
      simp only [hlead, Bool.false_eq_true, if_false] at h1
      unfold transmit
      wps
      refine walk_voteProcess ?_ (fun _ => ⟨hash, lr, hi⟩)
      have hs : ({ s with isLeader := false } : State T) = s := by cases s; simp_all
      rw [hs] at h1
      rw [List.append_assoc]
      exact h1

theorem walk_brake {e : Env T} {i : Input T} {w0 : World T} {s : State T} {l : List (Effect T)}
    {r : Nat} {lr : Option Nat} (h : Runs e i w0 ⟨s, l⟩)
    (hi : (∃ h, i = .event (.brake h r lr) ∧ h = s.height) ∨ i = .start) :
    Walks e i w0 (handleBrake r lr) ⟨s, l⟩ := by
  unfold Walks handleBrake
  wps
  refine ⟨fun _ => h, fun hr => ⟨fun sig hsig => ?_, fun _ => h⟩⟩
  have hr : r = s.round := Decidable.not_not.1 hr
  have h1 := h.step0 (.ownChoke s
    { signature := sig, choke := { height := s.height, round := s.round, «from» := s.updateFrom },
      address := s.address }
    (by rcases hi with ⟨hh, h1, h2⟩ | hi
        · exact .inl ⟨hh, r, lr, h1, h2, hr⟩
        · exact .inr hi) rfl rfl)
  refine wp_saveWalLR (fun _ => h1) (fun lock b hl e1 e2 => ?_) (fun lock b hl e1 e2 => ?_)
  · exact h1.stepTo (.wal _ .brake lr lock false ⟨b, e1, e2⟩ hl (.inr ⟨rfl, .inr ⟨rfl, by
      rcases hi with ⟨hh, h1, h2⟩ | hi
      · exact .inl ⟨hh, r, h1⟩
      · exact .inr hi⟩⟩)) rfl
  · have h2 := h1.stepTo (.castChoke _
      { signature := sig, choke := { height := s.height, round := s.round, «from» := s.updateFrom },
        address := s.address } lr lock ⟨b, e1, e2⟩ (by
          rcases hi with ⟨hh, h1, h2⟩ | hi
          · exact .inl ⟨hh, r, h1, h2, hr⟩
          · exact .inr hi) hl rfl rfl hsig) rfl
    unfold broadcast
    wps
    refine walk_checkChoke ?_ (by
      rcases hi with ⟨hh, h1, h2⟩ | hi
      · exact .inr (.inl ⟨hh, r, lr, h1⟩)
      · exact .inr (.inr hi))
    simpa using h2

theorem walk_commit {e : Env T} {i : Input T} {w0 : World T} {s : State T} {l : List (Effect T)}
    {hash : Hash} (h : Runs e i w0 ⟨s, l⟩) (hi : i = .event (.commit hash) ∨ i = .start) :
    Walks e i w0 (handleCommit hash) ⟨s, l⟩ := by
  unfold Walks handleCommit
  wps
  refine ⟨fun content hb => ⟨fun qc hq => ?_, fun _ => h⟩, fun _ => h⟩
  refine wp_saveWal (fun _ => h) (fun b e1 e2 => ?_) (fun b e1 e2 => ?_)
  · exact h.stepTo (.commitLost s _ ⟨b, e1, e2⟩ rfl rfl rfl) rfl
  · have h1 := h.stepTo (.commit s hash content qc ⟨b, e1, e2⟩ hi hb hq _ rfl) rfl
    refine ⟨fun status hs => ?_, fun hs => ?_⟩
    · unfold nextProposer
      wps
      simp only [mkCommit, hs] at h1
      have h2 : Runs e i w0 ⟨{ s with authority := Authority.update status.authorityList },
        l ++ [.saveWal (walRec s .commit (some { lockRound := s.round, lockVotes := qc, content := content })) true] ++
        [.commitCall s.height (mkCommit s hash content qc) (e.commit s.height (mkCommit s hash content qc))]⟩ := by
        simpa [mkCommit, hs] using h1
      refine ⟨fun p hp => ?_, fun _ _ => h2⟩
      refine walk_gotoNewHeight h2 ?_
      rcases hi with hi | hi
      · exact .inr (.inr ⟨_, hi⟩)
      · exact .inr (.inl hi)
    · simpa [mkCommit, hs] using h1

/-- `handle_brake` does not move the node. -/
theorem wp_brake_frame {e : Env T} {s : State T} {l : List (Effect T)} {r : Nat} {lr : Option Nat} :
    wp (handleBrake r lr) e ⟨s, l⟩ (fun _ w => (w.st.height, w.st.round) = (s.height, s.round))
      (fun _ w => (w.st.height, w.st.round) = (s.height, s.round)) := by
  unfold handleBrake
  wps
  refine ⟨fun _ => trivial, fun hr => ⟨fun sig hsig => ?_, fun _ => trivial⟩⟩
  refine wp_saveWalLR (fun _ => rfl) (fun lock b hl _ _ => rfl) (fun lock b hl _ _ => ?_)
  unfold broadcast checkChokeAboveThreshold
  wps
  split
  · rfl
  · wps [aggregateSignatures]
    exact ⟨fun _ => trivial, fun _ => ⟨fun _ _ => ⟨fun _ _ => trivial, fun _ => trivial⟩, fun _ => trivial⟩⟩

theorem walk_start {e : Env T} {w0 : World T} {s : State T} {l : List (Effect T)}
    (h : Runs e .start w0 ⟨s, l⟩) : Walks e .start w0 startWithWal ⟨s, l⟩ := by
  unfold Walks startWithWal
  rw [wp_bind, wp_get, wp_ite]
  refine ⟨fun _ => h, fun _ => ?_⟩
  rw [wp_bind]
  unfold loadWal
  rw [wp_bind, wp_ask]
  split
  · exact h
  · wps [walLost]
    exact ⟨fun _ => h.stepTo (.walLost s rfl) rfl, fun _ => h⟩
  · rename_i b hb
    split
    · rename_i w hd
      wps
      have h1 := h.step0 (.restorePos s w b rfl hb hd)
      refine wp_isProposer (fun _ => h1) fun p hp => ?_
      have h2 := h1.step0 (.restoreLeader _ p _ rfl hp rfl)
      have h3 := h2.step0 (.restoreFrom _ w b rfl hb hd)
      clear h1 h2
      have tail : ∀ s' , Runs e .start w0 ⟨s', l⟩ → s'.height = w.height → s'.round = w.round →
          (w.step = .brake → wp (handleBrake w.round (w.lock.map WalLock.lockRound)) e ⟨s', l⟩
            (fun _ w' => w.step ≠ .commit → Runs e .start w0 ⟨w'.st, w'.log ++ [.trigger (walTrig w.intoSmrBase)]⟩)
            (fun _ => Runs e .start w0)) ∧
          (¬ w.step = .brake → w.step ≠ .commit → Runs e .start w0 ⟨s', l ++ [.trigger (walTrig w.intoSmrBase)]⟩) := by
        intro s' hr h1 h2
        refine ⟨fun _ => ?_, fun _ hc => hr.stepTo (.walTrigger _ w b rfl hb hd hc h1 h2) rfl⟩
        refine wp_mono (wp_and (walk_brake hr (.inr rfl)) wp_brake_frame) ?_ (fun _ _ h => h.1)
        rintro _ ⟨st, lg⟩ ⟨hr', hf⟩ hc
        obtain ⟨hf1, hf2⟩ := Prod.mk.injEq .. ▸ hf
        exact hr'.stepTo (.walTrigger _ w b rfl hb hd hc (hf1.trans h1) (hf2.trans h2)) rfl
      cases hk : w.lock with
      | none =>
        wps
        have h4 : Runs e .start w0 ⟨{ s with height := w.height, round := w.round,
                                                 isLeader := decide (p = s.address),
                                                 leaderAddress := p, updateFrom := w.from }, l⟩ := h3
        have ht := tail _ h4 rfl rfl
        rw [hk] at ht
        refine ⟨fun _ => h4, fun hc => ⟨fun hbr => wp_mono (ht.1 hbr) (fun _ _ h => h hc) (fun _ _ h => h),
          fun hbr => ht.2 hbr hc⟩⟩
      | some lock =>
        wps
        have h4 := h3.step0 (.restoreLock _ w b lock rfl hb hd hk)
        have ht := tail _ h4 rfl rfl
        rw [hk] at ht
        refine ⟨fun _ => walk_commit h4 (.inr rfl), fun hc =>
          ⟨fun hbr => wp_mono (ht.1 hbr) (fun _ _ h => h hc) (fun _ _ h => h), fun hbr => ht.2 hbr hc⟩⟩
    · exact h
    · exact h

theorem walk_logged {e : Env T} {i : Input T} {w0 w : World T} {m : M T Unit} (h : Walks e i w0 m w) :
    Walks e i w0 (logged m) w := by
  unfold Walks at *
  rw [wp_logged]
  exact wp_mono h (fun _ _ h => h) (fun _ _ h => ⟨fun _ => h, fun _ => h⟩)

theorem walk_msg {e : Env T} {w0 : World T} {s : State T} {l : List (Effect T)} {m : OverlordMsg T}
    (h : Runs e (.verified m) w0 ⟨s, l⟩) : Walks e (.verified m) w0 (handleMsg m) ⟨s, l⟩ := by
  unfold Walks handleMsg
  rw [wp_bind, wp_get, wp_ite]
  refine ⟨fun _ => h, fun _ => ?_⟩
  cases m with
  | signedProposal sp => exact walk_logged (walk_signedProposal h (.inl rfl))
  | aggregatedVote av => exact walk_logged (walk_aggVote h (.inl rfl))
  | signedVote sv => exact walk_logged (walk_signedVote h)
  | signedChoke sc => exact walk_logged (walk_signedChoke h)
  | richStatus rs => exact walk_logged (walk_gotoNewHeight h (.inl rfl))
  | stop => wps; exact h.stepTo (.stop s rfl) rfl

theorem walk_event {e : Env T} {w0 : World T} {s : State T} {l : List (Effect T)} {ev : SMREvent}
    (h : Runs e (.event ev) w0 ⟨s, l⟩) : Walks e (.event ev) w0 (handleEvent ev) ⟨s, l⟩ := by
  unfold Walks handleEvent
  cases ev with
  | newRoundInfo hh r lr lp f ni nc => exact walk_logged (walk_newRound h ⟨hh, ni, nc, rfl⟩)
  | prevoteVote hh r hash lr => exact walk_logged (walk_voteEvent h ⟨hh, r, rfl⟩)
  | precommitVote hh r hash lr => exact walk_logged (walk_voteEvent h ⟨hh, r, rfl⟩)
  | commit hash => exact walk_logged (walk_commit h (.inl rfl))
  | brake hh r lr =>
    dsimp only
    rw [wp_bind, wp_get, wp_ite]
    exact ⟨fun _ => h, fun hn => walk_logged (walk_brake h (.inl ⟨hh, rfl, Decidable.not_not.1 hn⟩))⟩
  | stop => exact h

/-- Each arm of the run loop is a sequence of micro-steps. -/
theorem walk_arm {e : Env T} {w0 : World T} {s : State T} {l : List (Effect T)} {i : Input T}
    (h : Runs e i w0 ⟨s, l⟩) : Walks e i w0 (runArm i) ⟨s, l⟩ := by
  unfold Walks runArm
  cases i with
  | start => dsimp only; rw [wp_bind]; exact walk_logged (walk_start h)
  | raw m =>
    dsimp only
    rw [wp_ite]
    refine ⟨fun hm => by wps; exact h.stepTo (.forward s m rfl (.inl hm)) rfl, fun hm => ?_⟩
    split
    · exact h
    · rename_i hh hg
      wps
      refine ⟨fun hl => h.stepTo (.forward s m rfl (.inr ⟨_, hg, hl⟩)) rfl, fun _ => ⟨fun heq => ?_, fun _ => h⟩⟩
      subst heq
      exact h.stepTo (.verify s m rfl hg ((Bool.not_eq_true _).mp hm)) rfl
  | event ev =>
    dsimp only
    rw [wp_bind, wp_get, wp_ite]
    refine ⟨fun _ => h, fun _ => ?_⟩
    rw [wp_ite]
    refine ⟨fun _ => h, fun _ => ?_⟩
    rw [wp_bind]; exact walk_logged (walk_event h)
  | resp r =>
    dsimp only
    rw [wp_bind, wp_get, wp_ite]
    refine ⟨fun _ => h, fun _ => ?_⟩
    rw [wp_bind]; exact walk_logged (walk_resp h)
  | verified m => dsimp only; rw [wp_bind]; exact walk_logged (walk_msg h)

/-- The whole run of an arm. -/
theorem runs_arm (e : Env T) (i : Input T) (s : State T) :
    Runs e i ⟨s, []⟩ (runArm i e ⟨s, []⟩).2 := wp_post (walk_arm .refl)

end Overlord
