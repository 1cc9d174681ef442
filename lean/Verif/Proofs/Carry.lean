import Verif.Proofs.GoodHandlers2
import Verif.Spec.Orders

/-!
The State carries out an order, if the lock and the reason it refers to are stored, signing and saving work (used for C53).
-/

set_option linter.unusedSimpArgs false
set_option linter.unusedVariables false
set_option linter.unusedSectionVars false

namespace Overlord
open M Spec

variable {T : Type} [ContentCodec T] [DecidableEq T]

namespace Carry
open Good (enc_wal enc_prop wp_fromOk wp_isProposerOk)

theorem wp_saveOk (hE : Encodes T) {e : Env T} (he : ∀ b, e.walSave b = true) {s : State T} {l : List (Effect T)} {step : Step} {lock : Option (WalLock T)}
    {Q : Unit → World T → Prop} {E : Err → World T → Prop}
    (h : Q () ⟨s, l ++ [.saveWal (walRec s step lock) true]⟩) : wp (saveWal step lock) e ⟨s, l⟩ Q E := by
  refine wp_saveWal (fun hn => ?_) (fun b _ hb => ?_) (fun _ _ _ => h)
  · obtain ⟨b, hb⟩ := enc_wal hE (walRec s step lock)
    rw [hb] at hn; cases hn
  · rw [he] at hb; cases hb

theorem wp_saveLROk (hE : Encodes T) {e : Env T} (he : ∀ b, e.walSave b = true) {s : State T} {l : List (Effect T)} {step : Step} {lr : Option Nat}
    (hl : LockStored s lr)
    {Q : Unit → World T → Prop} {E : Err → World T → Prop}
    (h : ∀ lock, Q () ⟨s, l ++ [.saveWal (walRec s step lock) true]⟩) : wp (saveWalWithLockRound step lr) e ⟨s, l⟩ Q E := by
  unfold saveWalWithLockRound
  rw [wp_bind, wp_get]
  cases lr with
  | none => exact wp_saveOk hE he (h _)
  | some x =>
    obtain ⟨qc, c, h1, h2⟩ := hl
    dsimp only
    rw [h1]
    dsimp only
    rw [h2]
    wps
    refine ⟨fun c' hc => ?_, fun hc => by cases hc⟩
    cases hc
    exact wp_saveOk hE he (h _)

/-- The vote is released. -/
theorem vote (hE : Encodes T) {e : Env T} (he : Works e) {s : State T} {hash : Hash} {ty : VoteType} {lr : Option Nat} (hl : LockStored s lr) :
    wp (handleVoteEvent hash ty lr) e ⟨s, []⟩
      (fun _ w => ∃ sv : SignedVote, sv.vote = ⟨s.height, s.round, ty, hash⟩ ∧ sv.voter = s.address ∧
        (if s.isLeader then .ownVote sv else .transmit s.leaderAddress (.signedVote sv)) ∈ w.log)
      (fun _ w => ∃ sv : SignedVote, sv.vote = ⟨s.height, s.round, ty, hash⟩ ∧ sv.voter = s.address ∧
        (if s.isLeader then .ownVote sv else .transmit s.leaderAddress (.signedVote sv)) ∈ w.log) := by
  unfold handleVoteEvent signVote
  wps
  refine ⟨fun sig hsig => ?_, fun hn => ?_⟩
  swap
  · have := he.signs (e.crypto.hash (encVote ⟨s.height, s.round, ty, hash⟩)); rw [hn] at this; cases this
  refine wp_saveLROk hE he.saves hl fun lock => ?_
  refine ⟨fun hlead => ?_, fun hlead => ?_⟩
  · refine wp_mono calm_voteProcess ?_ ?_ <;>
    · rintro _ ⟨st, lg⟩ ⟨l2, h1, -⟩
      dsimp only at h1
      subst h1
      exact ⟨⟨sig, ⟨s.height, s.round, ty, hash⟩, s.address⟩, rfl, rfl, by simp [hlead]⟩
  · unfold transmit
    wps
    refine wp_mono calm_voteProcess ?_ ?_ <;>
    · rintro _ ⟨st, lg⟩ ⟨l2, h1, -⟩
      dsimp only at h1
      subst h1
      exact ⟨⟨sig, ⟨s.height, s.round, ty, hash⟩, s.address⟩, rfl, rfl, by simp [hlead]⟩

/-- The choke is broadcast. -/
theorem brake (hE : Encodes T) {e : Env T} (he : Works e) {s : State T} {lr : Option Nat} (hl : LockStored s lr) :
    wp (handleBrake s.round lr) e ⟨s, []⟩
      (fun _ w => ∃ sc : SignedChoke, sc.choke = ⟨s.height, s.round, s.updateFrom⟩ ∧ sc.address = s.address ∧
        .broadcast (.signedChoke sc) ∈ w.log)
      (fun _ w => ∃ sc : SignedChoke, sc.choke = ⟨s.height, s.round, s.updateFrom⟩ ∧ sc.address = s.address ∧
        .broadcast (.signedChoke sc) ∈ w.log) := by
  unfold handleBrake
  wps
  simp only [ne_eq, not_true_eq_false, false_implies, not_false_eq_true, true_implies, true_and]
  refine ⟨fun sig hsig => ?_, fun hn => ?_⟩
  swap
  · have := he.signs (e.crypto.hash (encHashChoke (Choke.toHash ⟨s.height, s.round, s.updateFrom⟩))); rw [hn] at this; cases this
  refine wp_saveLROk hE he.saves ?_ fun lock => ?_
  · exact hl
  unfold broadcast
  wps
  refine wp_mono calm_checkChoke ?_ ?_ <;>
  · rintro _ ⟨st, lg⟩ ⟨l2, h1, -⟩
    dsimp only at h1
    subst h1
    exact ⟨⟨sig, ⟨s.height, s.round, s.updateFrom⟩, s.address⟩, rfl, rfl, by simp⟩

/-- The block is committed. -/
theorem commit (hE : Encodes T) {e : Env T} (he : Works e) {s : State T} {hash : Hash} {c : T} {qc : AggregatedVote}
    (hb : s.hashWithBlock.get? hash = some c) (hq : s.votes.getQcByHash s.height hash .precommit = some qc) :
    wp (handleCommit hash) e ⟨s, []⟩
      (fun _ w => .commitCall s.height (mkCommit s hash c qc) (e.commit s.height (mkCommit s hash c qc)) ∈ w.log)
      (fun _ w => .commitCall s.height (mkCommit s hash c qc) (e.commit s.height (mkCommit s hash c qc)) ∈ w.log) := by
  refine wp_handleCommit ?_ ?_ ?_ ?_
  · intro h
    obtain ⟨b, h'⟩ := enc_wal hE (commitRec s qc c)
    rw [h c qc hb hq] at h'; cases h'
  · rintro c' qc' h1 h2 ⟨b, _, h3⟩
    rw [he.saves] at h3; cases h3
  · intro c' qc' h1 h2 _ h4
    rw [hb] at h1; cases h1
    rw [hq] at h2; cases h2
    simp [h4]
  · intro c' qc' st h1 h2 _ h4
    rw [hb] at h1; cases h1
    rw [hq] at h2; cases h2
    dsimp only
    simp only [h4]
    refine ⟨fun _ _ => by simp, fun _ => by simp, fun _ _ => by simp, fun _ _ _ => by simp, fun _ _ _ => by simp⟩

/-- The leader fields are as they were. -/
def SameLead (s s' : State T) : Prop := s'.round = s.round ∧ s'.isLeader = s.isLeader ∧ s'.leaderAddress = s.leaderAddress

/-- Only orders to enter a round, and starts, change the leader fields. -/
theorem micro_lead {e : Env T} {i : Input T} {s s' : State T} {eff : List (Effect T)} (hn : i ≠ .start)
    (hi : ∀ r lr lp f, ¬ NewRoundInput i r lr lp f) (hm : Micro e i s eff s') :
    s'.isLeader = s.isLeader ∧ s'.leaderAddress = s.leaderAddress := by
  cases hm with
  | enterRound round lr lp f h => exact absurd h (hi _ _ _ _)
  | leader p b h => obtain ⟨r, lr, lp, f, h⟩ := h; exact absurd h (hi _ _ _ _)
  | restoreLeader _ _ h => exact absurd h hn
  | _ => exact ⟨rfl, rfl⟩

theorem lead_signedProposal {e : Env T} {s : State T} {l : List (Effect T)} {sp : SignedProposal T} :
    wp (handleSignedProposal sp) e ⟨s, l⟩ (fun _ w => SameLead s w.st ∧ w.st.updateFrom = s.updateFrom ∧ ∃ l', w.log = l ++ l')
      (fun _ w => SameLead s w.st ∧ w.st.updateFrom = s.updateFrom ∧ ∃ l', w.log = l ++ l') := by
  have key : ∀ w, Runs e (.verified (.signedProposal sp)) ⟨s, l⟩ w → SameLead s w.st ∧ w.st.updateFrom = s.updateFrom ∧ ∃ l', w.log = l ++ l' := by
    intro w h
    induction h with
    | refl => exact ⟨⟨rfl, rfl, rfl⟩, rfl, [], by simp⟩
    | step h hm ih =>
      obtain ⟨⟨h1, h2, h3⟩, h0, l', h4⟩ := ih
      have hq := (quiet_micro (.inr (.inr ⟨_, rfl, rfl⟩)) hm).2.2
      have hl := micro_lead (by simp) (by rintro r lr lp f ⟨h, ni, nc, h'⟩; cases h') hm
      refine ⟨⟨hq.trans h1, hl.1.trans h2, hl.2.trans h3⟩, ?_, l' ++ _, by rw [h4, List.append_assoc]⟩
      rw [← h0]
      cases hm with
      | setFrom u round lr lp f h => obtain ⟨h, ni, nc, h'⟩ := h; cases h'
      | restoreFrom _ _ h => cases h
      | _ => rfl
  exact wp_mono (walk_signedProposal .refl (.inl rfl)) (fun _ w h => key w h) (fun _ w h => key w h)

/-- What a leader proposes. -/
def Proposes (e : Env T) (s : State T) (r : Nat) (lr : Option Nat) (lp : Option Hash) (w : World T) : Prop :=
  ∃ sp : SignedProposal T, .broadcast (.signedProposal sp) ∈ w.log ∧ sp.proposal.height = s.height ∧ sp.proposal.round = r ∧
    sp.proposal.proposer = s.address ∧
    match lr with
    | none => sp.proposal.lock = none ∧ e.getBlock s.height = some (sp.proposal.content, sp.proposal.blockHash)
    | some k => lp = some sp.proposal.blockHash ∧ s.hashWithBlock.get? sp.proposal.blockHash = some sp.proposal.content ∧
        ∃ qc, s.votes.getQcById s.height k .prevote = .ok qc ∧ sp.proposal.lock = some { lockRound := k, lockVotes := qc }

/-- The round is entered. -/
structure Entered (e : Env T) (s : State T) (r : Nat) (lr : Option Nat) (lp : Option Hash) (f : FromWhere) (p : Address) (w : World T) : Prop where
  round : w.st.round = r
  isLeader : w.st.isLeader = decide (p = s.address)
  leader : w.st.leaderAddress = p
  reason : FromOf s f w.st.updateFrom
  saved : ∃ lock, WalLockOf s lr lock ∧ .saveWal { height := s.height, round := r, step := .propose, lock := lock, «from» := w.st.updateFrom } true ∈ w.log
  leads : p = s.address → (∀ h, (e.crypto.sign h).isSome = true) → (lr = none → (e.getBlock s.height).isSome = true) →
    (∀ x, lr.isSome = true → lp = some x → (s.hashWithBlock.get? x).isSome = true) → Proposes e s r lr lp w

theorem wp_saveLROk' (hE : Encodes T) {e : Env T} (he : ∀ b, e.walSave b = true) {s : State T} {l : List (Effect T)} {step : Step} {lr : Option Nat}
    (hl : LockStored s lr)
    {Q : Unit → World T → Prop} {E : Err → World T → Prop}
    (h : ∀ lock, WalLockOf s lr lock → Q () ⟨s, l ++ [.saveWal (walRec s step lock) true]⟩) : wp (saveWalWithLockRound step lr) e ⟨s, l⟩ Q E := by
  unfold saveWalWithLockRound
  rw [wp_bind, wp_get]
  cases lr with
  | none => exact wp_saveOk hE he (h _ rfl)
  | some x =>
    obtain ⟨qc, c, h1, h2⟩ := hl
    dsimp only
    rw [h1]
    dsimp only
    rw [h2]
    wps
    refine ⟨fun c' hc => ?_, fun hc => by cases hc⟩
    cases hc
    exact wp_saveOk hE he (h _ ⟨qc, c, h1, h2, rfl⟩)

theorem wp_fromOk' {e : Env T} {s : State T} {l : List (Effect T)} {f : FromWhere} (hf : FromStored s f)
    {Q : Unit → World T → Prop} {E : Err → World T → Prop}
    (h : ∀ u, FromOf s f u → Q () ⟨{ s with updateFrom := u }, l⟩) : wp (setUpdateFrom f) e ⟨s, l⟩ Q E := by
  unfold setUpdateFrom
  cases f with
  | prevoteQC r =>
    obtain ⟨qc, hq⟩ := hf
    wps
    rw [hq]
    exact ⟨fun qc' hq' => by cases hq'; exact h _ ⟨qc, hq, rfl⟩, fun _ hx => by cases hx⟩
  | precommitQC r =>
    wps
    refine ⟨fun hr => h _ ⟨_, .inl ⟨hr, rfl⟩, rfl⟩, fun hr => ?_⟩
    rcases hf with hf | ⟨qc, hq⟩
    · exact absurd hf hr
    · rw [hq]
      exact ⟨fun qc' hq' => by cases hq'; exact h _ ⟨qc, .inr hq, rfl⟩, fun _ hx => by cases hx⟩
  | chokeQC r =>
    obtain ⟨qc, hq⟩ := hf
    wps
    rw [hq]
    exact ⟨fun qc' hq' => by cases hq'; exact h _ ⟨qc, hq, rfl⟩, fun hx => by cases hx⟩

theorem newRound (hE : Encodes T) {e : Env T} (he : ∀ b, e.walSave b = true) {s : State T} {r : Nat} {lr : Option Nat} {lp : Option Hash} {f : FromWhere}
    (hl : lr.isSome = lp.isSome) (hls : LockStored s lr) (hf : FromStored s f) {p : Address}
    (hp : s.authority.getProposer e.mode s.height r = .ok p) :
    wp (handleNewRound r lr lp f) e ⟨s, []⟩ (fun _ => Entered e s r lr lp f p) (fun _ => Entered e s r lr lp f p) := by
  have key : ∀ l' : List (Effect T),
      wp (do
        if lr.isSome ≠ lp.isSome then fail .proposalErr
        else
          setUpdateFrom f
          saveWalWithLockRound .propose lr
          if (← isProposer) = false then
            let s ← get
            match s.proposals.get s.height s.round with
            | .ok sp => handleSignedProposal sp
            | .error _ => pure ()
          else
            modify fun s => { s with isLeader := true }
            let (block, hash, polc) ← proposalParts lr lp
            modify fun s => { s with hashWithBlock :=
              match s.hashWithBlock.get? hash with
              | some _ => s.hashWithBlock
              | none => s.hashWithBlock.insert hash block }
            let s ← get
            let sp ← signProposal { height := s.height, round := s.round, content := block,
                                    blockHash := hash, lock := polc, proposer := s.address }
            broadcast (.signedProposal sp)
            emit (.trigger (stTrigger .proposal hash lr s.round s.height))
            checkBlock hash block) e ⟨{ s with round := r, isLeader := false }, l'⟩
        (fun _ => Entered e s r lr lp f p) (fun _ => Entered e s r lr lp f p) := by
    intro l'
    rw [if_neg (fun h => h hl), wp_bind]
    refine wp_fromOk' (s := { s with round := r, isLeader := false }) hf fun u hu => ?_
    rw [wp_bind]
    refine wp_saveLROk' (s := { s with round := r, isLeader := false, updateFrom := u }) hE he hls fun lock hlock => ?_
    rw [wp_bind]
    refine wp_isProposerOk (s := { s with round := r, isLeader := false, updateFrom := u }) hp ?_
    have hlk : WalLockOf s lr lock := by cases lr <;> exact hlock
    have hfr : FromOf s f u := by cases f <;> exact hu
    generalize hl1 : l' ++ [Effect.saveWal (walRec { s with round := r, isLeader := false, updateFrom := u } Step.propose lock) true] = l1
    have hsv : .saveWal { height := s.height, round := r, step := .propose, lock := lock, «from» := u } true ∈ l1 := by
      rw [← hl1]; simp [walRec]
    have fin : ∀ (w : World T), w.st.round = r → w.st.isLeader = decide (p = s.address) → w.st.leaderAddress = p → w.st.updateFrom = u →
        (∃ l2, w.log = l1 ++ l2) → (p = s.address → (∀ h, (e.crypto.sign h).isSome = true) → (lr = none → (e.getBlock s.height).isSome = true) →
          (∀ x, lr.isSome = true → lp = some x → (s.hashWithBlock.get? x).isSome = true) → Proposes e s r lr lp w) → Entered e s r lr lp f p w := by
      rintro w h1 h2 h3 h4 ⟨l2, h5⟩ h6
      refine ⟨h1, h2, h3, by rw [h4]; exact hfr, ⟨lock, hlk, ?_⟩, h6⟩
      rw [h4, h5]; exact List.mem_append_left _ hsv
    by_cases hb : p = s.address
    · have hd : decide (p = s.address) = true := decide_eq_true hb
      rw [hd]
      rw [if_neg (by simp)]
      subst hb
      rw [wp_bind, wp_modify, wp_bind]
      unfold proposalParts
      cases lr with
      | none =>
        wps
        refine ⟨fun bh hbh => ?_, fun hn => fin _ rfl hd.symm rfl rfl ⟨_, rfl⟩ fun _ _ h => absurd (h rfl) (by simp [hn])⟩
        obtain ⟨block, hash⟩ := bh
        wps [signProposal, broadcast, checkBlock]
        refine ⟨fun b hb => ⟨fun sig hsig => ?_, fun hn => ?_⟩, fun hn => ?_⟩
        · refine fin _ rfl hd.symm rfl rfl ⟨[_, _, _, _], by simp only [List.append_assoc, List.cons_append, List.nil_append]; rfl⟩ fun _ _ _ _ => ?_
          exact ⟨⟨sig, ⟨s.height, r, block, hash, none, s.address⟩⟩, by simp, rfl, rfl, rfl, rfl, hbh⟩
        · exact fin _ rfl hd.symm rfl rfl ⟨_, rfl⟩ fun _ h => absurd (h (e.crypto.hash b)) (by simp [hn])
        · obtain ⟨b, hb⟩ := enc_prop hE ⟨s.height, r, block, hash, none, s.address⟩
          rw [hb] at hn; cases hn
      | some k =>
        obtain ⟨qc, c, h3, h4⟩ := hls
        wps
        refine ⟨fun hash hlp => ⟨fun b hget => ?_, fun hn => ?_⟩, fun hn => ?_⟩
        · rw [h3]
          wps [signProposal, broadcast, checkBlock, hget]
          refine ⟨fun b' hb => ⟨fun sig hsig => ?_, fun hn => ?_⟩, fun hn => ?_⟩
          · refine fin _ rfl hd.symm rfl rfl ⟨[_, _, _], by simp only [List.append_assoc, List.cons_append, List.nil_append]; rfl⟩ fun _ _ _ _ => ?_
            exact ⟨⟨sig, ⟨s.height, r, b, hash, some ⟨k, qc⟩, s.address⟩⟩, by simp, rfl, rfl, rfl, hlp, hget, qc, h3, rfl⟩
          · exact fin _ rfl hd.symm rfl rfl ⟨[], by simp⟩ fun _ h => absurd (h (e.crypto.hash b')) (by simp [hn])
          · obtain ⟨b, hb⟩ := enc_prop hE ⟨s.height, r, b, hash, some ⟨k, qc⟩, s.address⟩
            rw [hb] at hn; cases hn
        · exact fin _ rfl hd.symm rfl rfl ⟨[], by simp⟩ fun _ _ _ h => absurd (h hash rfl hlp) (by simp [hn])
        · rw [hn] at hl; cases hl
    · have hd : decide (p = s.address) = false := decide_eq_false hb
      rw [hd, if_pos rfl]
      wps
      split
      · refine wp_mono lead_signedProposal ?_ ?_ <;>
        · rintro _ w ⟨⟨h1, h2, h3⟩, h4, h5⟩
          exact fin w h1 (h2.trans hd.symm) h3 h4 h5 fun h => absurd h hb
      · exact fin _ rfl hd.symm rfl rfl ⟨[], by simp⟩ fun h => absurd h hb
  unfold handleNewRound
  rw [wp_bind, wp_get]
  by_cases hr : r = INIT_ROUND
  · have := key []
    simp only [hr, ne_eq, not_true_eq_false, if_false] at this ⊢
    rw [wp_bind, wp_modify]
    exact this
  · have := key [.reportViewChange s.height s.round (s.viewChangeReason s.round f)]
    simp only [hr, ne_eq, not_false_eq_true, if_true, reportViewChange]
    rw [wp_bind, wp_bind, wp_get, wp_emit, wp_bind, wp_modify]
    exact this

end Carry

end Overlord
