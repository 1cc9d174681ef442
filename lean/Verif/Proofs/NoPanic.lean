import Verif.Spec.Panic
import Verif.Proofs.ArmRun
import Verif.Proofs.Authority

/-! No handler of the State panics (used for C48). -/

set_option linter.unusedSimpArgs false
set_option linter.unusedVariables false
set_option linter.unusedSectionVars false

namespace Overlord.NoPanic
open Spec M

variable {T : Type} [ContentCodec T] [DecidableEq T]

/-- A leader can be chosen. -/
def Au (mode : LeaderMode) (a : Authority) : Prop :=
  match mode with
  | .rotation => a.address.length % U32 ≠ 0
  | .random _ => a.proposeWeightSum ≠ 0

theorem au_update {mode : LeaderMode} {l : List Node} (h : Usable mode l) : Au mode (Authority.update l) := by
  cases mode with
  | rotation =>
    have h1 : l ≠ [] ∧ l.length < 2 ^ 32 := h
    have : (Authority.update l).address.length = l.length := update_len l
    show (Authority.update l).address.length % U32 ≠ 0
    rw [this, Nat.mod_eq_of_lt (by unfold U32; exact h1.2)]
    have := List.length_pos_iff.2 h1.1
    omega
  | random r =>
    have h1 : 0 < (l.map Node.proposeWeight).sum ∧ (l.map Node.proposeWeight).sum < 2 ^ 64 := h
    show (Authority.update l).proposeWeightSum ≠ 0
    rw [update_proposeWeightSum]
    have : totalPropose l = (l.map Node.proposeWeight).sum := rfl
    rw [this, Nat.mod_eq_of_lt (by unfold U64; exact h1.2)]
    omega

theorem au_ne {mode : LeaderMode} {a : Authority} (h : Au mode a) (k r : Nat) {x : Err} (hx : a.getProposer mode k r = .error x) : x ≠ .panic := by
  rintro rfl
  unfold Authority.getProposer at hx
  cases mode with
  | rotation =>
    have h : a.address.length % U32 ≠ 0 := h
    simp only [rotationLeaderIndex, h, if_false, bind, Except.bind] at hx
    split at hx <;> cases hx
  | random g =>
    have h : a.proposeWeightSum ≠ 0 := h
    simp only [getRandomProposerIndex, h, if_false, bind, Except.bind] at hx
    repeat' split at hx
    all_goals try cases hx
    all_goals (rename_i h1; split at h1 <;> cases h1)

/-! ### Errors of the collectors -/

theorem qcById_ne {c : VoteCollector} {k r : Nat} {ty : VoteType} {x : Err} (h : c.getQcById k r ty = .error x) : x ≠ .panic := by
  unfold VoteCollector.getQcById at h
  split at h <;> cases h; simp

theorem getVotes_ne {sh : Shuffle} {c : VoteCollector} {k r : Nat} {ty : VoteType} {hash : Hash} {x : Err} (h : c.getVotes sh k r ty hash = .error x) :
    x ≠ .panic := by
  unfold VoteCollector.getVotes at h
  split at h <;> cases h; simp

theorem insert_ne {c : ProposalCollector T} {k r : Nat} {sp : SignedProposal T} {x : Err} (h : c.insert k r sp = .error x) : x ≠ .panic := by
  unfold ProposalCollector.insert at h
  simp only at h
  split at h
  · split at h <;> cases h; simp
  · cases h

theorem sum_ne {a : Authority} {l : List Address} {x : Err} : ∀ {acc : Nat}, sumWeights32 a acc l = .error x → x ≠ .panic := by
  induction l with
  | nil => intro acc h; cases h
  | cons y l ih =>
    intro acc h
    simp only [sumWeights32] at h
    split at h
    · exact ih h
    · rename_i e he
      cases h
      unfold Authority.getVoteWeight at he
      split at he <;> cases he; simp

theorem count_ne {sh : Shuffle} {a : Authority} {m : List (Hash × List Address)} {x : Err} (h : countLoop sh a m = .error x) : x ≠ .panic := by
  induction m with
  | nil => cases h
  | cons y m ih =>
    obtain ⟨hash, set⟩ := y
    simp only [countLoop] at h
    split at h
    · rename_i e he; cases h; exact sum_ne he
    · split at h
      · cases h
      · exact ih h

theorem counting_ne {sh : Shuffle} {a : Authority} {c : VoteCollector} {k r : Nat} {ty : VoteType} {x : Err}
    (h : countingVote sh a c k r ty = .error x) : x ≠ .panic := by
  unfold countingVote at h
  split at h
  · rename_i e he
    cases h
    unfold VoteCollector.getVoteMap at he
    split at he
    · split at he <;> cases he; simp
    · cases he; simp
  · exact count_ne h

theorem chokes_some {sh : Shuffle} {c : ChokeCollector} {n r : Nat} (h : c.maxRoundAboveThreshold n = some r) : c.getChokes sh r ≠ none := by
  unfold ChokeCollector.maxRoundAboveThreshold at h
  simp only [Option.map_eq_some_iff] at h
  obtain ⟨p, hp, rfl⟩ := h
  have hm := List.mem_of_find?_eq_some hp
  rw [(List.perm_insertionSort _ _).mem_iff] at hm
  unfold ChokeCollector.getChokes
  intro hn
  rw [Option.map_eq_none_iff] at hn
  have := (AMap.mem_keys_iff c.chokes p.1).1 (List.mem_map_of_mem hm)
  rw [hn] at this
  cases this

/-! ### Handlers -/

/-- The authority list stays usable and there is no panic. -/
abbrev NP {α : Type} (e : Env T) (m : M T α) (w : World T) : Prop :=
  wp m e w (fun _ w' => Au e.mode w'.st.authority) (fun x w' => x ≠ .panic ∧ Au e.mode w'.st.authority)

section
variable {α β : Type} {e : Env T} {w : World T}

theorem np_bind {m : M T α} {f : α → M T β} (h : NP e m w) (hf : ∀ a w', Au e.mode w'.st.authority → NP e (f a) w') : NP e (m >>= f) w := by
  unfold NP; rw [wp_bind]
  exact wp_mono h (fun a w' hw => hf a w' hw) (fun _ _ h => h)

theorem np_seq {m : M T Unit} {f : M T β} (h : NP e m w) (hf : ∀ w', Au e.mode w'.st.authority → NP e f w') : NP e (do m; f) w :=
  np_bind h fun _ => hf

theorem np_get {f : State T → M T β} (hf : NP e (f w.st) w) : NP e (get >>= f) w := by
  unfold NP; rw [wp_bind, wp_get]; exact hf

theorem np_ask {γ : Type} {g : Env T → γ} {f : γ → M T β} (hf : NP e (f (g e)) w) : NP e (ask g >>= f) w := by
  unfold NP; rw [wp_bind, wp_ask]; exact hf

theorem np_lift {x : Except Err α} {f : α → M T β} (hw : Au e.mode w.st.authority) (hx : ∀ y, x = .error y → y ≠ .panic)
    (hf : ∀ a, x = .ok a → NP e (f a) w) : NP e (lift x >>= f) w := by
  unfold NP; rw [wp_bind, wp_lift]; exact ⟨hf, fun y hy => ⟨hx y hy, hw⟩⟩

theorem np_some {x : Option α} {y : Err} {f : α → M T β} (hw : Au e.mode w.st.authority) (hx : y ≠ .panic ∨ x ≠ none)
    (hf : ∀ a, x = some a → NP e (f a) w) : NP e (some! x y >>= f) w := by
  unfold NP; rw [wp_bind, wp_some]
  refine ⟨hf, fun hn => ⟨?_, hw⟩⟩
  rcases hx with h | h
  · exact h
  · exact absurd hn h

theorem np_emit {x : Effect T} (hw : Au e.mode w.st.authority) : NP e (emit x) w := hw
theorem np_modify {f : State T → State T} (hw : Au e.mode w.st.authority) (hf : ∀ s, (f s).authority = s.authority) : NP e (modify f) w := by
  unfold NP; rw [wp_modify, hf]; exact hw
theorem np_pure {a : α} (hw : Au e.mode w.st.authority) : NP e (pure a) w := hw
theorem np_fail {x : Err} (hx : x ≠ .panic) (hw : Au e.mode w.st.authority) : NP e (fail x : M T α) w := ⟨hx, hw⟩
theorem np_ite {c : Prop} [Decidable c] {a b : M T α} (ha : c → NP e a w) (hb : ¬ c → NP e b w) : NP e (if c then a else b) w := by
  split
  · exact ha (by assumption)
  · exact hb (by assumption)
theorem np_logged {m : M T Unit} (h : NP e m w) : NP e (logged m) w := by
  unfold NP; rw [wp_logged]
  exact wp_mono h (fun _ _ h => h) (fun x w' h => ⟨fun hp => absurd hp h.1, fun _ => h.2⟩)

theorem np_verifyAddress (a : Address) (h : Au e.mode w.st.authority) : NP e (verifyAddress a) w :=
  np_get (np_ite (fun _ => np_pure h) fun _ => np_fail (by simp) h)

theorem np_verifyProposer (k r : Nat) (a : Address) (h : Au e.mode w.st.authority) : NP e (verifyProposer k r a) w :=
  np_seq (np_verifyAddress a h) fun w h => np_get (np_ask (np_lift h (fun y hy => au_ne h _ _ hy) fun p _ =>
    np_ite (fun _ => np_fail (by simp) h) fun _ => np_pure h))

theorem np_isProposer (h : Au e.mode w.st.authority) : NP e isProposer w :=
  np_get (np_ask (np_lift h (fun y hy => au_ne h _ _ hy) fun p _ => np_ite
    (fun _ => np_seq (np_modify h fun _ => rfl) fun w h => np_pure h)
    fun _ => np_seq (np_modify h fun _ => rfl) fun w h => np_pure h))

theorem np_nextProposer (k r : Nat) (h : Au e.mode w.st.authority) : NP e (nextProposer k r) w :=
  np_get (np_ask (np_lift h (fun y hy => au_ne h _ _ hy) fun p _ => np_pure h))

theorem np_someLast {x : Option α} {y : Err} (hw : Au e.mode w.st.authority) (hx : y ≠ .panic) : NP e (some! x y) w := by
  unfold NP; rw [wp_some]; exact ⟨fun _ _ => hw, fun _ => ⟨hx, hw⟩⟩
theorem np_liftLast {x : Except Err α} (hw : Au e.mode w.st.authority) (hx : ∀ y, x = .error y → y ≠ .panic) : NP e (lift x) w := by
  unfold NP; rw [wp_lift]; exact ⟨fun _ _ => hw, fun y hy => ⟨hx y hy, hw⟩⟩

theorem np_signVote (v : Vote) (h : Au e.mode w.st.authority) : NP e (signVote v) w :=
  np_get (np_ask (np_some h (.inl (by simp)) fun _ _ => np_pure h))
theorem np_aggregate (l : List Signature) (l' : List Address) (h : Au e.mode w.st.authority) : NP e (aggregateSignatures l l') w :=
  np_ask (np_someLast h (by simp))
theorem np_transmit (m : OverlordMsg T) (h : Au e.mode w.st.authority) : NP e (transmit m) w := np_get (np_emit h)
theorem np_checkBlock (hash : Hash) (b : T) (h : Au e.mode w.st.authority) : NP e (checkBlock hash b) w := np_get (np_emit h)
theorem np_report (r : Nat) (x : ViewChangeReason) (h : Au e.mode w.st.authority) : NP e (reportViewChange r x) w := np_get (np_emit h)

theorem np_setFrom (f : FromWhere) (h : Au e.mode w.st.authority) : NP e (setUpdateFrom f) w := by
  refine np_get ?_
  cases f with
  | prevoteQC r =>
    exact np_lift h (fun y hy => qcById_ne hy) fun _ _ => np_bind (np_pure h) fun _ w h => np_modify h fun _ => rfl
  | precommitQC r =>
    exact np_ite (fun _ => np_bind (np_pure h) fun _ w h => np_bind (np_pure h) fun _ w h => np_modify h fun _ => rfl)
      fun _ => np_lift h (fun y hy => qcById_ne hy) fun _ _ => np_bind (np_pure h) fun _ w h => np_modify h fun _ => rfl
  | chokeQC r =>
    exact np_some h (.inl (by simp)) fun _ _ => np_bind (np_pure h) fun _ w h => np_modify h fun _ => rfl

theorem np_count (ty : VoteType) (h : Au e.mode w.st.authority) : NP e (countVotes ty) w :=
  np_get (np_ask (np_liftLast h fun y hy => counting_ne hy))

theorem np_generateQc (hash : Hash) (ty : VoteType) (h : Au e.mode w.st.authority) : NP e (generateQc hash ty) w :=
  np_get (np_ask (np_lift h (fun y hy => getVotes_ne hy) fun vs _ => np_bind (np_aggregate _ _ h) fun _ w h => np_pure h))

theorem np_checkChoke (h : Au e.mode w.st.authority) : NP e checkChokeAboveThreshold w := by
  refine np_get ?_
  split
  · exact np_pure h
  · rename_i r hr
    refine np_ite (fun _ => np_pure h) fun _ => np_ask (np_some h (.inr (chokes_some hr)) fun scs _ => ?_)
    exact np_bind (np_aggregate _ _ h) fun _ w h => np_seq (np_modify h fun _ => rfl) fun w h => np_emit h

theorem np_aggChoke (ac : AggregatedChoke) (h : Au e.mode w.st.authority) : NP e (handleAggregatedChoke ac) w :=
  np_get (np_ite (fun _ => np_fail (by simp) h) fun _ => np_seq (np_modify h fun _ => rfl) fun w h => np_emit h)

theorem np_aggVote (qc : AggregatedVote) (h : Au e.mode w.st.authority) : NP e (handleAggregatedVote qc) w :=
  np_get (np_ite (fun _ => np_pure h) fun _ => np_ite
    (fun _ => np_ite (fun _ => np_modify h fun _ => rfl) fun _ => np_pure h)
    fun _ => np_ite (fun _ => np_pure h) fun _ => np_ite (fun _ => np_pure h) fun _ =>
      np_seq (np_modify h fun _ => rfl) fun w h => np_ite (fun _ => np_pure h) fun _ => np_emit h)

theorem np_signedChoke (sc : SignedChoke) (h : Au e.mode w.st.authority) : NP e (handleSignedChoke sc) w := by
  refine np_get (np_ite (fun _ => np_pure h) fun _ => np_ite (fun _ => np_pure h) fun _ => np_ite (fun _ => ?_) fun _ =>
    np_seq (np_modify h fun _ => rfl) fun w h => np_checkChoke h)
  split
  exacts [np_aggVote _ h, np_aggVote _ h, np_aggChoke _ h]

theorem np_certify (s : State T) (hash : Hash) (ty : VoteType) (f : AggregatedVote → M T Unit) (h : Au e.mode w.st.authority)
    (hf : ∀ qc w', Au e.mode w'.st.authority → NP e (f qc) w') : NP e (do
      let qc ← generateQc hash ty
      modify fun s => { s with votes := s.votes.setQc qc }
      broadcast (.aggregatedVote qc)
      if s.tryGetFullTxs hash = false then pure () else f qc) w :=
  np_bind (np_generateQc _ _ h) fun qc w h => np_seq (np_modify h fun _ => rfl) fun w h => np_seq (np_emit h) fun w h =>
    np_ite (fun _ => np_pure h) fun _ => hf qc w h

theorem np_signedVote (sv : SignedVote) (h : Au e.mode w.st.authority) : NP e (handleSignedVote sv) w := by
  refine np_get (np_ite (fun _ => np_pure h) fun _ => np_seq (np_verifyAddress _ h) fun w h => ?_)
  split
  · exact np_pure h
  · refine np_seq (np_modify h fun _ => rfl) fun w h => np_ite (fun _ => np_pure h) fun _ => np_bind (np_count _ h) fun o w h => ?_
    split
    · exact np_pure h
    · exact np_certify _ _ _ _ h fun _ w h => np_emit h

theorem np_voteProcess (ty : VoteType) (h : Au e.mode w.st.authority) : NP e (voteProcess ty) w := by
  refine np_get (np_ite (fun _ => ?_) fun _ => np_bind (np_count _ h) fun o w h => ?_)
  · split
    · exact np_ite (fun _ => np_pure h) fun _ => np_emit h
    · exact np_pure h
  · split
    · exact np_pure h
    · exact np_certify _ _ _ _ h fun _ w h => np_emit h

theorem np_resp (r : VerifyResp) (h : Au e.mode w.st.authority) : NP e (handleResp r) w := by
  refine np_get (np_ite (fun _ => np_pure h) fun _ => np_seq (np_modify h fun _ => rfl) fun w h => ?_)
  split
  · exact np_emit h
  · split
    · exact np_ite (fun _ => np_emit h) fun _ => np_pure h
    · exact np_pure h

theorem np_reCheck (l : List (OverlordMsg T)) (h : Au e.mode w.st.authority) : NP e (reCheck l) w := by
  obtain ⟨s, l'⟩ := w
  exact wp_reCheck h

/-! ### Handlers that encode -/

variable (hE : Encodes T)
include hE

theorem enc_wal (w : WalInfo T) : encWalInfo w ≠ none := by
  unfold encWalInfo encWalLock?
  cases w.lock with
  | none => simp
  | some l =>
    have := hE l.content
    obtain ⟨c, hc⟩ := Option.isSome_iff_exists.1 this
    simp [encWalLock, hc]

theorem enc_prop (p : Proposal T) : encProposal p ≠ none := by
  have := hE p.content
  obtain ⟨c, hc⟩ := Option.isSome_iff_exists.1 this
  simp [encProposal, hc]

theorem np_signProposal (p : Proposal T) (h : Au e.mode w.st.authority) : NP e (signProposal p) w :=
  np_ask (np_some h (.inr (enc_prop hE p)) fun _ _ => np_some h (.inl (by simp)) fun _ _ => np_pure h)

theorem np_saveWal (step : Step) (lock : Option (WalLock T)) (h : Au e.mode w.st.authority) : NP e (saveWal step lock) w :=
  np_get (np_ask (np_some h (.inr (enc_wal hE _)) fun _ _ => np_seq (np_emit h) fun w h =>
    np_ite (fun _ => np_pure h) fun _ => np_fail (by simp) h))

theorem np_saveLR (step : Step) (lr : Option Nat) (h : Au e.mode w.st.authority) : NP e (saveWalWithLockRound step lr) w := by
  refine np_get ?_
  split
  · exact np_saveWal hE _ _ h
  · split
    · exact np_fail (by simp) h
    · exact np_some h (.inl (by simp)) fun _ _ => np_saveWal hE _ _ h

theorem np_goto {st : Status} (hst : Usable e.mode st.authorityList) (h : Au e.mode w.st.authority) : NP e (gotoNewHeight st) w := by
  obtain ⟨s, l⟩ := w
  refine wp_gotoNewHeight (fun _ => h) (fun _ _ => h) (fun _ _ hn => absurd hn (enc_wal hE _)) (fun _ _ _ _ _ => ⟨by simp, h⟩)
    fun _ _ _ _ _ => ?_
  exact au_update hst

theorem np_filter (sp : SignedProposal T) (h : Au e.mode w.st.authority) : NP e (filterSignedProposal sp) w :=
  np_get (np_ite (fun _ => np_pure h) fun _ => np_ite
    (fun _ => np_lift h (fun y hy => insert_ne hy) fun _ _ => np_seq (np_modify h fun _ => rfl) fun w h => np_pure h)
    fun _ => np_pure h)

theorem np_signedProposal (sp : SignedProposal T) (h : Au e.mode w.st.authority) : NP e (handleSignedProposal sp) w :=
  np_seq (np_verifyProposer _ _ _ h) fun w h => np_bind (np_filter hE sp h) fun b w h => np_ite (fun _ => np_pure h) fun _ =>
    np_seq (np_modify h fun _ => rfl) fun w h => np_get (np_lift h (fun y hy => insert_ne hy) fun _ _ =>
      np_seq (np_modify h fun _ => rfl) fun w h => np_seq (np_emit h) fun w h => np_checkBlock _ _ h)

theorem np_parts (lr : Option Nat) (lp : Option Hash) (hl : lr.isSome = lp.isSome) (h : Au e.mode w.st.authority) :
    NP e (proposalParts lr lp : M T _) w := by
  refine np_get ?_
  split
  · refine np_ask (np_seq (np_emit h) fun w h => np_some h (.inl (by simp)) fun x _ => ?_)
    exact np_pure h
  · refine np_some h (.inr (by rintro rfl; simp at hl)) fun _ _ => np_some h (.inl (by simp)) fun _ _ => ?_
    split
    · exact np_pure h
    · exact np_fail (by simp) h

theorem np_newRound (r : Nat) (lr : Option Nat) (lp : Option Hash) (f : FromWhere) (h : Au e.mode w.st.authority) :
    NP e (handleNewRound r lr lp f) w := by
  refine np_get ?_
  have key : ∀ w : World T, Au e.mode w.st.authority → NP e (do
      if lr.isSome ≠ lp.isSome then fail .proposalErr
      else
        setUpdateFrom f
        saveWalWithLockRound .propose lr
        if (← isProposer) = false then
          let s ← get
          match s.proposals.get s.height s.round with
          | .ok sp => handleSignedProposal sp
          | .error _ => pure ()
        else
          modify fun s => { s with isLeader := true }
          let (block, hash, polc) ← proposalParts lr lp
          modify fun s => { s with hashWithBlock :=
            match s.hashWithBlock.get? hash with
            | some _ => s.hashWithBlock
            | none => s.hashWithBlock.insert hash block }
          let s ← get
          let sp ← signProposal { height := s.height, round := s.round, content := block,
                                  blockHash := hash, lock := polc, proposer := s.address }
          broadcast (.signedProposal sp)
          emit (.trigger (stTrigger .proposal hash lr s.round s.height))
          checkBlock hash block) w := by
    intro w h
    refine np_ite (fun _ => np_fail (by simp) h) fun hl => ?_
    refine np_seq (np_setFrom f h) fun w h => np_seq (np_saveLR hE _ _ h) fun w h => np_bind (np_isProposer h) fun b w h => ?_
    refine np_ite (fun _ => np_get ?_) fun _ => ?_
    · split
      · exact np_signedProposal hE _ h
      · exact np_pure h
    · refine np_seq (np_modify h fun _ => rfl) fun w h => np_bind (np_parts hE lr lp (Decidable.not_not.1 hl) h) fun x w h => ?_
      refine np_seq (np_modify h fun _ => rfl) fun w h => np_get (np_bind (np_signProposal hE _ h) fun _ w h => ?_)
      exact np_seq (np_emit h) fun w h => np_seq (np_emit h) fun w h => np_checkBlock _ _ h
  by_cases hr : r ≠ INIT_ROUND
  · rw [if_pos hr]; exact np_seq (np_report _ _ h) fun w h => np_seq (np_modify h fun _ => rfl) key
  · rw [if_neg hr]; exact np_seq (np_modify h fun _ => rfl) key

theorem np_voteEvent (hash : Hash) (ty : VoteType) (lr : Option Nat) (h : Au e.mode w.st.authority) : NP e (handleVoteEvent hash ty lr) w := by
  refine np_get (np_bind (np_signVote _ h) fun sv w h => np_seq (np_saveLR hE _ _ h) fun w h => ?_)
  have : ∀ w : World T, Au e.mode w.st.authority → NP e (voteProcess ty) w := fun w h => np_voteProcess ty h
  split
  · exact np_seq (np_modify h fun _ => rfl) fun w h => np_seq (np_emit h) this
  · exact np_seq (np_transmit _ h) this

theorem np_brake (r : Nat) (lr : Option Nat) (h : Au e.mode w.st.authority) : NP e (handleBrake r lr) w :=
  np_get (np_ask (np_ite (fun _ => np_fail (by simp) h) fun _ => np_some h (.inl (by simp)) fun _ _ =>
    np_seq (np_modify h fun _ => rfl) fun w h => np_seq (np_saveLR hE _ _ h) fun w h => np_seq (np_emit h) fun w h => np_checkChoke h))

variable (hc : ∀ k c st, e.commit k c = some st → Usable e.mode st.authorityList)
include hc

theorem np_commit (hash : Hash) (h : Au e.mode w.st.authority) : NP e (handleCommit hash) w := by
  refine np_get (np_some h (.inl (by simp)) fun _ _ => np_some h (.inl (by simp)) fun _ _ => np_seq (np_saveWal hE _ _ h) fun w h => ?_)
  refine np_ask (np_seq (np_emit h) fun w h => np_some h (.inl (by simp)) fun st hst => ?_)
  have hu := hc _ _ _ hst
  have h1 : NP e (modify fun s => { s with authority := Authority.update st.authorityList }) w := by
    unfold NP; rw [wp_modify]; exact au_update hu
  exact np_seq h1 fun w h => np_bind (np_nextProposer _ _ h) fun _ w h => np_goto hE hu h

theorem np_start (hl : ∀ b, e.walLoad = some (some b) → decWalInfo (T := T) b ≠ .error .panic) (h : Au e.mode w.st.authority) :
    NP e startWithWal w := by
  have load : ∀ w : World T, Au e.mode w.st.authority → NP e loadWal w := by
    intro w h
    refine np_ask ?_
    split
    · exact np_fail (by simp) h
    · exact np_pure h
    · rename_i b hb
      split
      · exact np_pure h
      · exact np_fail (by simp) h
      · rename_i hd; exact absurd hd (hl b hb)
  refine np_get (np_ite (fun _ => np_pure h) fun _ => np_bind (load w h) fun o w h => ?_)
  split
  · exact np_ite (fun _ => np_get (np_emit h)) fun _ => np_pure h
  · rename_i w0
    refine np_seq (np_modify h fun _ => rfl) fun w h => np_bind (np_isProposer h) fun l w h => np_seq (np_modify h fun _ => rfl) fun w h => ?_
    have rest : ∀ w : World T, Au e.mode w.st.authority → NP e (do
        if w0.step = .commit then
          match w0.lock with
          | none => fail .loadWalErr
          | some lock => handleCommit lock.lockVotes.blockHash
        else
          if w0.step = .brake then handleBrake w0.round (w0.lock.map WalLock.lockRound)
          emit (.trigger { stTrigger .walInfo [] none w0.round w0.height with walInfo := some w0.intoSmrBase })) w := by
      intro w h
      refine np_ite (fun _ => ?_) fun _ => ?_
      · split
        · exact np_fail (by simp) h
        · exact np_commit hE hc _ h
      · split
        · exact np_seq (np_brake hE _ _ h) fun w h => np_emit h
        · exact np_emit h
    cases hk : w0.lock with
    | some lk =>
      simp only [hk] at rest
      exact np_seq (np_modify h fun _ => rfl) rest
    | none =>
      simp only [hk] at rest
      exact rest _ h

/-- The inputs that do not panic. -/
def InputOk (e : Env T) : Input T → Prop
  | .start => ∀ b, e.walLoad = some (some b) → decWalInfo (T := T) b ≠ .error .panic
  | .raw m => m ≠ .stop
  | .event ev => ev ≠ .stop
  | .resp _ => True
  | .verified m => ∀ st, m = .richStatus st → Usable e.mode st.authorityList

omit hE hc in
/-- After `logged` the task goes on. -/
theorem np_on {m : M T Unit} (h : NP e m w) :
    wp (do logged m; pure true) e w (fun b w' => b = true ∧ Au e.mode w'.st.authority) (fun _ _ => False) := by
  rw [wp_bind, wp_logged]
  exact wp_mono h (fun _ _ h => ⟨rfl, h⟩) (fun x w' h => ⟨fun hp => absurd hp h.1, fun _ => ⟨rfl, h.2⟩⟩)

theorem np_arm {i : Input T} (hi : InputOk e i) (h : Au e.mode w.st.authority) (hs : ∀ ev, i = .event ev → w.st.stopped = false) :
    wp (runArm i) e w (fun b w' => b = true ∧ Au e.mode w'.st.authority) (fun _ _ => False) := by
  cases i with
  | start => exact np_on (np_start hE hc hi h)
  | raw m =>
    have hi : m ≠ .stop := hi
    unfold runArm
    wps
    refine ⟨fun _ => ⟨trivial, h⟩, fun hn => ?_⟩
    split
    · rename_i hm
      cases m
      case stop => exact hi rfl
      all_goals cases hm
    · wps
      exact ⟨fun _ => ⟨trivial, h⟩, fun _ => ⟨fun _ => ⟨trivial, h⟩, fun _ => ⟨trivial, h⟩⟩⟩
  | event ev =>
    have hi : ev ≠ .stop := hi
    have hs := hs ev rfl
    unfold runArm
    rw [wp_bind, wp_get]
    simp only [hs, Bool.false_eq_true, if_false]
    split
    · exact ⟨rfl, h⟩
    · refine np_on ?_
      cases ev with
      | newRoundInfo => exact np_logged (np_newRound hE _ _ _ _ h)
      | prevoteVote => exact np_logged (np_voteEvent hE _ _ _ h)
      | precommitVote => exact np_logged (np_voteEvent hE _ _ _ h)
      | commit => exact np_logged (np_commit hE hc _ h)
      | brake => exact np_get (np_ite (fun _ => np_pure h) fun _ => np_logged (np_brake hE _ _ h))
      | stop => exact absurd rfl hi
  | resp r =>
    unfold runArm
    rw [wp_bind, wp_get]
    split
    · exact ⟨rfl, h⟩
    · exact np_on (np_resp r h)
  | verified m =>
    have hi : ∀ st, m = .richStatus st → Usable e.mode st.authorityList := hi
    refine np_on (np_get (np_ite (fun _ => np_pure h) fun _ => ?_))
    cases m with
    | signedProposal sp => exact np_logged (np_signedProposal hE sp h)
    | aggregatedVote av => exact np_logged (np_aggVote av h)
    | signedVote sv => exact np_logged (np_signedVote sv h)
    | signedChoke sc => exact np_logged (np_signedChoke sc h)
    | richStatus rs => exact np_logged (np_goto hE (hi _ rfl) h)
    | stop => exact np_seq (np_emit h) fun w h => np_modify h fun _ => rfl

/-- The task goes on. -/
theorem arm_up {i : Input T} {s : State T} (hi : InputOk e i) (h : Au e.mode s.authority) (hs : ∀ ev, i = .event ev → s.stopped = false) :
    (runArm i e ⟨s, []⟩).1 = .ok true ∧ Au e.mode (runArm i e ⟨s, []⟩).2.st.authority := by
  rcases wp_exists (np_arm (w := ⟨s, []⟩) hE hc hi h hs) with ⟨a, h1, h2, h3⟩ | ⟨x, _, h2⟩
  · rw [h1, h2]; exact ⟨rfl, h3⟩
  · exact h2.elim

end

end Overlord.NoPanic
