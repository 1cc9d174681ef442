import Verif.Spec.Traffic

/-! Bounds for the number of effects of a handler (used for C60). -/

set_option linter.unusedSimpArgs false
set_option linter.unusedVariables false
set_option linter.unusedSectionVars false

namespace Overlord
open M Spec

variable {T α β : Type}

/-- A price for each kind of effect: messages to others, commits, requests for blocks, checks, saves, reports, triggers. -/
structure Price where
  o : Nat
  c : Nat
  g : Nat
  k : Nat
  s : Nat
  r : Nat
  t : Nat

def Price.of (w : Price) : Effect T → Nat
  | .broadcast _ => w.o
  | .transmit _ _ => w.o
  | .commitCall _ _ _ => w.c
  | .getBlock _ _ => w.g
  | .spawnCheck _ _ _ _ => w.k
  | .saveWal _ _ => w.s
  | .reportViewChange _ _ _ => w.r
  | .trigger _ => w.t
  | .ownVote _ => 0
  | .spawnVerify _ _ => 0
  | .toVerified _ => 0

def Price.all (w : Price) (l : List (Effect T)) : Nat := (l.map w.of).sum

/-- The effects that `m` adds cost at most `n`. -/
def Cost (p : Price) (n : Nat) (m : M T α) : Prop := ∀ e w, p.all (m e w).2.log ≤ p.all w.log + n

namespace Cost
variable {p : Price} {n k : Nat}

theorem pure (a : α) : Cost p n (Pure.pure a : M T α) := fun _ _ => Nat.le_add_right _ _
theorem mpure (a : α) : Cost p n (M.pure a : M T α) := fun _ _ => Nat.le_add_right _ _
theorem fail (x : Err) : Cost p n (M.fail x : M T α) := fun _ _ => Nat.le_add_right _ _
theorem get : Cost p n (M.get : M T _) := fun _ _ => Nat.le_add_right _ _
theorem ask (f : Env T → α) : Cost p n (M.ask f) := fun _ _ => Nat.le_add_right _ _
theorem modify (f : State T → State T) : Cost p n (M.modify f) := fun _ _ => Nat.le_add_right _ _
theorem lift (x : Except Err α) : Cost p n (M.lift x : M T α) := fun _ _ => Nat.le_add_right _ _
theorem some! (x : Option α) (y : Err) : Cost p n (M.some! x y : M T α) := fun e w => by
  unfold M.some!; split <;> exact Nat.le_add_right _ _
theorem emit (x : Effect T) : Cost p (p.of x) (M.emit x) := fun _ w => by simp [M.emit, Price.all]
theorem mono {m : M T α} (h : Cost p k m) (hk : k ≤ n) : Cost p n m := fun e w => Nat.le_trans (h e w) (by omega)
theorem mbind {m : M T α} {f : α → M T β} (h : Cost p k m) (hf : ∀ a, Cost p n (f a)) : Cost p (k + n) (M.bind m f) := fun e w => by
  have h1 := h e w
  unfold M.bind
  split
  · rename_i a w' hw
    rw [hw] at h1
    have := hf a e w'
    simp only at *; omega
  · rename_i a w' hw
    rw [hw] at h1
    simp only at *; omega
/-- One part after the other; the rest has to do with what is left. -/
theorem step {m : M T α} {f : α → M T β} (h : Cost p k m) (hk : k ≤ n) (hf : ∀ a, Cost p (n - k) (f a)) : Cost p n (m >>= f) := by
  have := mbind h hf
  rwa [Nat.add_sub_cancel' hk] at this
theorem skip {m : M T α} {f : α → M T β} (h : Cost p 0 m) (hf : ∀ a, Cost p n (f a)) : Cost p n (m >>= f) := by
  have := mbind h hf; rwa [Nat.zero_add] at this
theorem logged {m : M T Unit} (h : Cost p n m) : Cost p n (M.logged m) := fun e w => by
  have h1 := h e w
  unfold M.logged
  split <;> rename_i hw <;> rw [hw] at h1 <;> exact h1
theorem forEach {f : α → M T Unit} (hf : ∀ a, Cost p 0 (f a)) : ∀ l : List α, Cost p n (M.forEach l f)
  | [] => mpure _
  | a :: l => by
    have := mbind (n := n) (hf a) (fun _ => forEach hf l)
    rwa [Nat.zero_add] at this

/-- The cost of a run from an empty log. -/
theorem run {m : M T α} (h : Cost p n m) (e : Env T) (s : State T) : p.all (m e ⟨s, []⟩).2.log ≤ n := by
  have := h e ⟨s, []⟩
  simpa [Price.all] using this

end Cost

/-- Splits a handler into its parts, of which the given ones are known. -/
syntax "cost" "[" term,* "]" : tactic
macro_rules
  | `(tactic| cost [$hs,*]) => do
    let mut known ← `(tactic| fail)
    let mut last ← `(tactic| fail)
    for h in hs.getElems do
      known ← `(tactic| first
        | (with_reducible refine Cost.step ($h ..) (by omega) (fun _ => ?_))
        | $known:tactic)
      last ← `(tactic| first
        | (with_reducible refine Cost.mono ($h ..) ?_; omega)
        | $last:tactic)
    `(tactic| repeat' (first
    | with_reducible exact Cost.pure _
    | with_reducible exact Cost.mpure _
    | with_reducible exact Cost.fail _
    | with_reducible exact Cost.get
    | with_reducible exact Cost.ask _
    | with_reducible exact Cost.modify _
    | with_reducible exact Cost.lift _
    | with_reducible exact Cost.some! _ _
    | with_reducible refine Cost.logged ?_
    | with_reducible refine Cost.forEach (fun _ => ?_) _
    | (with_reducible refine Cost.step (Cost.emit _) (by simp only [Price.of]; omega) (fun _ => ?_); simp only [Price.of])
    | $known:tactic
    | (with_reducible refine Cost.skip ?_ (fun _ => ?_))
    | split
    | (with_reducible refine Cost.mono (Cost.emit _) ?_; simp only [Price.of]; omega)
    | $last:tactic
    | (dsimp only)))

section
variable {p : Price}

theorem cost_verifyAddress (a : Address) : Cost p 0 (verifyAddress a : M T Unit) := by unfold verifyAddress; cost []
theorem cost_verifyProposer (h r : Nat) (a : Address) : Cost p 0 (verifyProposer h r a : M T Unit) := by
  unfold verifyProposer; cost [cost_verifyAddress]
theorem cost_isProposer : Cost p 0 (isProposer : M T Bool) := by unfold isProposer; cost []
theorem cost_nextProposer (h r : Nat) : Cost p 0 (nextProposer h r : M T Bool) := by unfold nextProposer; cost []
theorem cost_signVote (v : Vote) : Cost p 0 (signVote v : M T SignedVote) := by unfold signVote; cost []
theorem cost_aggregateSignatures (l : List Signature) (v : List Address) : Cost p 0 (aggregateSignatures l v : M T Signature) := by
  unfold aggregateSignatures; cost []
theorem cost_setUpdateFrom (f : FromWhere) : Cost p 0 (setUpdateFrom f : M T Unit) := by
  unfold setUpdateFrom; cost []
theorem cost_countVotes (ty : VoteType) : Cost p 0 (countVotes ty : M T _) := by unfold countVotes; cost []
theorem cost_generateQc (h : Hash) (ty : VoteType) : Cost p 0 (generateQc h ty : M T _) := by
  unfold generateQc; cost [cost_aggregateSignatures]
theorem cost_transmit (m : OverlordMsg T) : Cost p p.o (transmit m) := by unfold transmit; cost []
theorem cost_broadcast (m : OverlordMsg T) : Cost p p.o (broadcast m) := by unfold broadcast; cost []
theorem cost_reportViewChange (r : Nat) (x : ViewChangeReason) : Cost p p.r (reportViewChange r x : M T Unit) := by unfold reportViewChange; cost []
theorem cost_checkBlock (h : Hash) (b : T) : Cost p p.k (checkBlock h b) := by unfold checkBlock; cost []
theorem cost_checkChoke : Cost p p.t (checkChokeAboveThreshold : M T Unit) := by
  unfold checkChokeAboveThreshold; cost [cost_aggregateSignatures]
theorem cost_aggChoke (x : AggregatedChoke) : Cost p p.t (handleAggregatedChoke x : M T Unit) := by unfold handleAggregatedChoke; cost []
theorem cost_aggVote (x : AggregatedVote) : Cost p p.t (handleAggregatedVote x : M T Unit) := by unfold handleAggregatedVote; cost []
theorem cost_signedChoke (x : SignedChoke) : Cost p p.t (handleSignedChoke x : M T Unit) := by
  unfold handleSignedChoke; cost [cost_aggVote, cost_aggChoke, cost_checkChoke]
theorem cost_signedVote (x : SignedVote) : Cost p (p.o + p.t) (handleSignedVote x : M T Unit) := by
  unfold handleSignedVote; cost [cost_verifyAddress, cost_countVotes, cost_generateQc, cost_broadcast]
theorem cost_voteProcess (ty : VoteType) : Cost p (p.o + p.t) (voteProcess ty : M T Unit) := by
  unfold voteProcess; cost [cost_countVotes, cost_generateQc, cost_broadcast]
theorem cost_resp (x : VerifyResp) : Cost p p.t (handleResp x : M T Unit) := by unfold handleResp; cost []
theorem cost_reCheck (l : List (OverlordMsg T)) : Cost p 0 (reCheck l) := by unfold reCheck; cost []

section
variable [ContentCodec T]

theorem cost_signProposal (x : Proposal T) : Cost p 0 (signProposal x) := by unfold signProposal; cost []
theorem cost_saveWal (x : Step) (l : Option (WalLock T)) : Cost p p.s (saveWal x l) := by unfold saveWal; cost []
theorem cost_saveWalWithLockRound (x : Step) (l : Option Nat) : Cost p p.s (saveWalWithLockRound x l : M T Unit) := by
  unfold saveWalWithLockRound; cost [cost_saveWal]
theorem cost_gotoNewHeight (x : Status) : Cost p (p.s + p.t) (gotoNewHeight x : M T Unit) := by
  unfold gotoNewHeight; cost [cost_saveWal, cost_reCheck]
theorem cost_handleVoteEvent (h : Hash) (ty : VoteType) (l : Option Nat) : Cost p (p.s + 2 * p.o + p.t) (handleVoteEvent h ty l : M T Unit) := by
  unfold handleVoteEvent; cost [cost_saveWalWithLockRound, cost_signVote, cost_voteProcess, cost_transmit]
theorem cost_handleBrake (r : Nat) (l : Option Nat) : Cost p (p.s + p.o + p.t) (handleBrake r l : M T Unit) := by
  unfold handleBrake; cost [cost_saveWalWithLockRound, cost_checkChoke, cost_broadcast]
theorem cost_handleCommit (h : Hash) : Cost p (2 * p.s + p.c + p.t) (handleCommit h : M T Unit) := by
  unfold handleCommit; cost [cost_saveWal, cost_nextProposer, cost_gotoNewHeight]
theorem cost_walLost : Cost p p.t (walLost : M T Unit) := by unfold walLost; cost []
theorem cost_loadWal : Cost p 0 (loadWal : M T _) := by unfold loadWal; cost []
theorem cost_startWithWal : Cost p (2 * p.s + p.c + p.o + 2 * p.t) (startWithWal : M T Unit) := by
  unfold startWithWal
  refine .skip .get fun s => ?_
  split
  · exact .pure _
  refine .skip cost_loadWal fun w => ?_
  split
  · split
    · exact cost_walLost.mono (by omega)
    · exact .pure _
  · rename_i w
    have rest : Cost p (2 * p.s + p.c + p.o + 2 * p.t) (if w.step = .commit then
        match w.lock with
        | none => M.fail .loadWalErr
        | some lock => handleCommit lock.lockVotes.blockHash
      else do
        if w.step = .brake then handleBrake w.round (w.lock.map WalLock.lockRound)
        M.emit (.trigger { stTrigger .walInfo [] none w.round w.height with walInfo := some w.intoSmrBase }) : M T Unit) := by
      split
      · split
        · exact .fail _
        · exact (cost_handleCommit _).mono (by omega)
      · dsimp only
        split
        · refine .step (cost_handleBrake _ _) (by omega) fun _ => ?_
          refine (Cost.emit _).mono ?_
          simp only [Price.of]; omega
        · refine (Cost.emit _).mono ?_
          simp only [Price.of]; omega
    refine .skip (.modify _) fun _ => .skip cost_isProposer fun l => .skip (.modify _) fun _ => ?_
    revert rest
    dsimp only
    intro rest
    cases hl : w.lock with
    | some lock =>
      simp only [hl] at rest ⊢
      exact .skip (.modify _) fun _ => rest
    | none =>
      simp only [hl] at rest ⊢
      exact rest
theorem cost_proposalParts (l : Option Nat) (q : Option Hash) : Cost p p.g (proposalParts l q : M T _) := by unfold proposalParts; cost []

variable [DecidableEq T]

theorem cost_filterSignedProposal (x : SignedProposal T) : Cost p 0 (filterSignedProposal x) := by unfold filterSignedProposal; cost []
theorem cost_signedProposal (x : SignedProposal T) : Cost p (p.t + p.k) (handleSignedProposal x) := by
  unfold handleSignedProposal; cost [cost_verifyProposer, cost_filterSignedProposal, cost_checkBlock]
theorem cost_handleNewRound (n : Nat) (l : Option Nat) (q : Option Hash) (f : FromWhere) :
    Cost p (p.r + p.s + p.g + p.o + p.t + p.k) (handleNewRound n l q f : M T Unit) := by
  unfold handleNewRound
  have rest : Cost p (p.s + p.g + p.o + p.t + p.k) (do
      M.modify fun s => { s with round := n, isLeader := false }
      if l.isSome ≠ q.isSome then M.fail .proposalErr
      else
        setUpdateFrom f
        saveWalWithLockRound .propose l
        if (← isProposer) = false then
          let s ← M.get
          match s.proposals.get s.height s.round with
          | .ok sp => handleSignedProposal sp
          | .error _ => pure ()
        else
          M.modify fun s => { s with isLeader := true }
          let (block, hash, polc) ← proposalParts l q
          M.modify fun s => { s with hashWithBlock :=
            match s.hashWithBlock.get? hash with
            | some _ => s.hashWithBlock
            | none => s.hashWithBlock.insert hash block }
          let s ← M.get
          let sp ← signProposal { height := s.height, round := s.round, content := block,
                                  blockHash := hash, lock := polc, proposer := s.address }
          broadcast (.signedProposal sp)
          M.emit (.trigger (stTrigger .proposal hash l s.round s.height))
          checkBlock hash block : M T Unit) := by
    refine .skip (.modify _) fun _ => ?_
    split
    · exact .fail _
    refine .skip (cost_setUpdateFrom _) fun _ => .step (cost_saveWalWithLockRound _ _) (by omega) fun _ => .skip cost_isProposer fun b => ?_
    split
    · refine .skip .get fun s => ?_
      split
      · exact (cost_signedProposal _).mono (by omega)
      · exact .pure _
    · refine .skip (.modify _) fun _ => .step (cost_proposalParts _ _) (by omega) fun x => .skip (.modify _) fun _ => .skip .get fun s =>
        .skip (cost_signProposal _) fun sp => .step (cost_broadcast _) (by omega) fun _ => .step (.emit _) ?_ fun _ => (cost_checkBlock _ _).mono ?_
      · simp only [Price.of]; omega
      · simp only [Price.of]; omega
  refine .skip .get fun s => ?_
  dsimp only
  split
  · refine .step (cost_reportViewChange _ _) (by omega) fun _ => rest.mono (by omega)
  · exact rest.mono (by omega)
theorem cost_handleEvent (ev : SMREvent) : Cost p (p.r + 2 * p.s + p.g + 2 * p.o + p.c + p.t + p.k) (handleEvent ev : M T Unit) := by
  have h1 := cost_handleNewRound (T := T) (p := p)
  have h2 := cost_handleVoteEvent (T := T) (p := p)
  have h3 := cost_handleCommit (T := T) (p := p)
  unfold handleEvent
  split
  · exact .logged ((h1 _ _ _ _).mono (by omega))
  · exact .logged ((h2 _ _ _).mono (by omega))
  · exact .logged ((h2 _ _ _).mono (by omega))
  · exact .logged ((h3 _).mono (by omega))
  · refine .skip .get fun _ => ?_
    split
    · exact .pure _
    · exact .logged ((cost_handleBrake _ _).mono (by omega))
  · exact .fail _

end
end

end Overlord
