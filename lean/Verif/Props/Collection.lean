import Verif.Proofs.Collection

/-!
# Properties of the collectors: C12, C13, C14, C39, C41 (collector part)
-/

set_option linter.unusedSimpArgs false

namespace Overlord
open Spec

namespace DemoVotes
def nodes : List Node := [⟨[1], 1, 1⟩, ⟨[2], 1, 1⟩, ⟨[3], 1, 1⟩, ⟨[4], 1, 1⟩]
def v (a : UInt8) (hash : Hash) (round : Nat) (ty : VoteType) : SignedVote :=
  ⟨[a], ⟨7, round, ty, hash⟩, [a]⟩
/-- Validators 1, 2, 4 prevote block 9 in round 0; 3 votes for 8 first and then for 9; 4 also sends a
conflicting vote; there are votes of another round and type. -/
def ops : List VoteOp :=
  [.vote (v 3 [8] 0 .prevote), .vote (v 1 [9] 0 .prevote), .vote (v 2 [9] 1 .prevote),
   .vote (v 3 [9] 0 .prevote), .vote (v 2 [9] 0 .prevote), .vote (v 2 [8] 0 .precommit),
   .qc ⟨⟨[], []⟩, .prevote, 7, 0, [8], []⟩, .vote (v 4 [9] 0 .prevote), .vote (v 4 [8] 0 .prevote)]
end DemoVotes

/-! ## C13 -/

/-- **C13.** After any history of received votes and stored certificates, the votes a node has for a
height, round, type and block are – in whatever order the hash maps are iterated – exactly the first
votes of that height, round and type of those validators whose first vote was for that block, each
once; if there is none the pool says so. -/
theorem C13_first_vote_wins (ops : List VoteOp) (h r : Nat) (ty : VoteType) (hash : Hash)
    (sh : Shuffle) :
    match (ops.foldl applyVoteOp []).getVotes sh h r ty hash with
    | .ok l => l ≠ [] ∧ (l.map SignedVote.voter).Nodup ∧
        ∀ sv, sv ∈ l ↔ (firstVote ops h r ty sv.voter = some sv ∧ sv.vote.blockHash = hash)
    | .error e => e = .storageErr ∧
        ∀ a sv, firstVote ops h r ty a = some sv → sv.vote.blockHash ≠ hash := by
  have hi := pool_inv ops h r ty
  rw [getVotes_pool]
  simp only [Votes.getVotes]
  cases hg : (poolD (ops.foldl applyVoteOp []) h r ty).byHash.get? hash with
  | none =>
    simp only [Option.bind_none]
    refine ⟨trivial, fun a sv hf he => ?_⟩
    have := (hi.mem hash a).2 ⟨sv, hf, he⟩
    rw [hg] at this; simp at this
  | some s =>
    simp only [Option.bind_some]
    have hmem : ∀ a, a ∈ s ↔ ∃ v, firstVote ops h r ty a = some v ∧ v.vote.blockHash = hash := by
      intro a
      have := hi.mem hash a
      rw [hg] at this
      simpa using this
    obtain ⟨hsn, hse⟩ := hi.setNodup _ _ hg
    obtain ⟨vs, h1, h2, h3⟩ := mapM_get (f := fun a => (poolD (ops.foldl applyVoteOp []) h r ty).byAddress.get? a)
      (sh.run s) (by
        intro a ha
        obtain ⟨v, hf, _⟩ := (hmem a).1 ((sh.perm _).subset ha)
        simp [hi.addr, hf]) (by
        intro a v hv
        rw [hi.addr] at hv
        exact hi.voter a v hv)
    rw [h1]
    refine ⟨?_, ?_, ?_⟩
    · intro he
      rw [he] at h2
      simp only [List.map_nil] at h2
      have := (sh.perm s).length_eq
      rw [← h2] at this
      exact hse (List.length_eq_zero_iff.1 this.symm)
    · rw [h2]; exact (sh.perm s).nodup_iff.2 hsn
    · intro sv
      constructor
      · intro hsv
        have hf := h3 sv hsv
        rw [hi.addr] at hf
        have hin : sv.voter ∈ s := (sh.perm s).subset (h2 ▸ List.mem_map.2 ⟨sv, hsv, rfl⟩)
        obtain ⟨v, hv, he⟩ := (hmem _).1 hin
        rw [hf] at hv
        simp only [Option.some.injEq] at hv
        exact ⟨hf, hv ▸ he⟩
      · rintro ⟨hf, he⟩
        have hin : sv.voter ∈ sh.run s := (sh.perm s).symm.subset ((hmem _).2 ⟨sv, hf, he⟩)
        rw [← h2] at hin
        obtain ⟨w, hw, hwe⟩ := List.mem_map.1 hin
        have := h3 w hw
        rw [hi.addr, hwe, hf] at this
        simp only [Option.some.injEq] at this
        rw [this]; exact hw

example : (DemoVotes.ops.foldl applyVoteOp []).getVotes .same 7 0 .prevote [9] =
    .ok [DemoVotes.v 1 [9] 0 .prevote, DemoVotes.v 2 [9] 0 .prevote, DemoVotes.v 4 [9] 0 .prevote] := by
  decide
example : (DemoVotes.ops.foldl applyVoteOp []).getVotes .rev 7 0 .prevote [8] =
    .ok [DemoVotes.v 3 [8] 0 .prevote] := by decide

/-- **C13, later votes change nothing.** Once a validator's vote for a height, round and type is in,
any further votes of it for them leave the pool of every height, round and type – the votes of every
block, the map used for counting and the number of votes – unchanged. -/
theorem C13_later_votes_change_nothing (ops : List VoteOp) (sv : SignedVote)
    (hs : (firstVote ops sv.vote.height sv.vote.round sv.vote.voteType sv.voter).isSome)
    (h r : Nat) (ty : VoteType) :
    let c := ops.foldl applyVoteOp []
    let c' := (ops ++ [VoteOp.vote sv]).foldl applyVoteOp []
    (∀ sh hash, c'.getVotes sh h r ty hash = c.getVotes sh h r ty hash) ∧
    c'.getVoteMap h r ty = c.getVoteMap h r ty := by
  intro c c'
  have hp : poolD c' h r ty = poolD c h r ty := by
    simp only [c', c, List.foldl_append, List.foldl_cons, List.foldl_nil, applyVoteOp, poolD_insertVote]
    split
    · rename_i hc
      obtain ⟨rfl, rfl, rfl⟩ := hc
      have := (pool_inv ops sv.vote.height sv.vote.round sv.vote.voteType).addr sv.voter
      simp [Votes.insert, AMap.contains, this, hs]
    · rfl
  constructor
  · intro sh hash; rw [getVotes_pool, getVotes_pool, hp]
  · rw [getVoteMap_pool, getVoteMap_pool, hp]

example : (firstVote DemoVotes.ops 7 0 .prevote [3]).isSome := by decide

/-! ## C12 -/

/-- **C12, soundness.** Whatever the iteration orders, a block elected by `counting_vote` really has
more than two thirds of the total weight: the validators whose counted vote is for it hold that
much. -/
theorem C12_elected_has_two_thirds (sh : Shuffle) (ops : List VoteOp) (l : List Node)
    (hd : Distinct l) (hz : Sized l) (hv : VotersIn ops l) (h r : Nat) (ty : VoteType) (hash : Hash)
    (he : countingVote sh (Authority.update l) (ops.foldl applyVoteOp []) h r ty = .ok (some hash)) :
    Quorum l (votedFor ops h r ty hash) := by
  rw [countingVote_eq sh ops h r ty l hd hz hv] at he
  split at he
  · simp at he
  · simp only [Except.ok.injEq, Option.map_eq_some_iff] at he
    obtain ⟨p, hp, rfl⟩ := he
    have := List.find?_some hp
    simp only [decide_eq_true_eq] at this
    have hm := Nat.mod_le (weight l (votedFor ops h r ty p.1)) U32
    unfold Quorum; omega

/-- **C12, uniqueness.** At most one block per height, round and type can have two thirds. -/
theorem C12_at_most_one_elected (ops : List VoteOp) (l : List Node) (h r : Nat) (ty : VoteType)
    (hash hash' : Hash) (h1 : Quorum l (votedFor ops h r ty hash))
    (h2 : Quorum l (votedFor ops h r ty hash')) : hash = hash' := by
  have hi := weight_inter l (votedFor ops h r ty hash) (votedFor ops h r ty hash')
  obtain ⟨n, _, hb⟩ := exists_of_weight_pos l
    (fun a => votedFor ops h r ty hash a && votedFor ops h r ty hash' a) (by
      unfold Quorum at *; omega)
  simp only [Bool.and_eq_true, votedFor] at hb
  cases hf : firstVote ops h r ty n.address with
  | none => rw [hf] at hb; simp at hb
  | some v =>
    rw [hf] at hb
    simp only [beq_iff_eq] at hb
    exact hb.1.symm.trans hb.2

/-- **C12, order independence.** The result of `counting_vote` – the elected block or none – is the
same for every iteration order of the hash maps and sets. -/
theorem C12_order_independent (sh sh' : Shuffle) (ops : List VoteOp) (l : List Node)
    (hd : Distinct l) (hz : Sized l) (hv : VotersIn ops l) (h r : Nat) (ty : VoteType) :
    countingVote sh (Authority.update l) (ops.foldl applyVoteOp []) h r ty =
      countingVote sh' (Authority.update l) (ops.foldl applyVoteOp []) h r ty := by
  rw [countingVote_eq sh ops h r ty l hd hz hv, countingVote_eq sh' ops h r ty l hd hz hv]
  split
  · rfl
  · congr 2
    apply find?_perm_unique
    · exact (sh.perm _).trans (sh'.perm _).symm
    · intro a ha b hb h1 h2
      simp only [decide_eq_true_eq] at h1 h2
      have ha' := (sh.perm _).subset ha
      have hb' := (sh.perm _).subset hb
      have hma := Nat.mod_le (weight l (votedFor ops h r ty a.1)) U32
      have hmb := Nat.mod_le (weight l (votedFor ops h r ty b.1)) U32
      have he : a.1 = b.1 := C12_at_most_one_elected ops l h r ty a.1 b.1
        (by unfold Quorum; omega) (by unfold Quorum; omega)
      have hi := pool_inv ops h r ty
      have g1 := AMap.get?_of_mem _ hi.hashNodup (k := a.1) (v := a.2) ha'
      have g2 := AMap.get?_of_mem _ hi.hashNodup (k := b.1) (v := b.2) hb'
      rw [he, g2] at g1
      simp only [Option.some.injEq] at g1
      exact Prod.ext he g1.symm

example : Distinct DemoVotes.nodes ∧ Sized DemoVotes.nodes :=
  ⟨by unfold Distinct; decide, by unfold Sized; decide⟩
example : VotersIn DemoVotes.ops DemoVotes.nodes := by
  intro sv h
  simp only [DemoVotes.ops, List.mem_cons, VoteOp.vote.injEq, reduceCtorEq, List.not_mem_nil,
    or_false, false_or] at h
  rcases h with rfl | rfl | rfl | rfl | rfl | rfl | rfl | rfl <;> decide
example : countingVote .same (Authority.update DemoVotes.nodes) (DemoVotes.ops.foldl applyVoteOp []) 7 0 .prevote
    = .ok (some [9]) := by decide
example : countingVote .rev (Authority.update DemoVotes.nodes) (DemoVotes.ops.foldl applyVoteOp []) 7 0 .prevote
    = .ok (some [9]) := by decide
example : countingVote .same (Authority.update DemoVotes.nodes) (DemoVotes.ops.foldl applyVoteOp []) 7 0 .precommit
    = .ok none := by decide

/-! ## C14 -/

/-- **C14.** If the total vote weight is below 2^32, `counting_vote` elects a block exactly when the
validators whose counted vote is for it hold more than two thirds of the weight. What is missing:
larger totals, where it is false (next theorem). -/
theorem C14_recognised_iff_two_thirds_partial (sh : Shuffle) (ops : List VoteOp) (l : List Node)
    (hd : Distinct l) (hz : Sized l) (hv : VotersIn ops l) (ht : total l < 2 ^ 32)
    (h r : Nat) (ty : VoteType) (hash : Hash) :
    countingVote sh (Authority.update l) (ops.foldl applyVoteOp []) h r ty = .ok (some hash) ↔
      Quorum l (votedFor ops h r ty hash) := by
  constructor
  · exact C12_elected_has_two_thirds sh ops l hd hz hv h r ty hash
  · intro hq
    have hi := pool_inv ops h r ty
    obtain ⟨n, _, hn⟩ := exists_of_weight_pos l (votedFor ops h r ty hash) (by
      unfold Quorum at hq; omega)
    have hmem : n.address ∈ ((poolD (ops.foldl applyVoteOp []) h r ty).byHash.get? hash).getD [] := by
      rw [hi.mem]
      unfold votedFor at hn
      cases hf : firstVote ops h r ty n.address with
      | none => rw [hf] at hn; simp at hn
      | some v => rw [hf] at hn; exact ⟨v, rfl, by simpa using hn⟩
    cases hg : (poolD (ops.foldl applyVoteOp []) h r ty).byHash.get? hash with
    | none => rw [hg] at hmem; simp at hmem
    | some s =>
      have hin := AMap.mem_of_get? _ hg
      rw [countingVote_eq sh ops h r ty l hd hz hv, if_neg (by intro he; rw [he] at hin; simp at hin)]
      simp only [Except.ok.injEq, Option.map_eq_some_iff]
      have hw : ∀ x, weight l (votedFor ops h r ty x) % U32 = weight l (votedFor ops h r ty x) := by
        intro x
        have := weight_le_total l (votedFor ops h r ty x)
        exact Nat.mod_eq_of_lt (by unfold U32; omega)
      simp only [hw]
      cases hfd : (sh.run (poolD (ops.foldl applyVoteOp []) h r ty).byHash).find?
          (fun p => decide (3 * weight l (votedFor ops h r ty p.1) > 2 * total l)) with
      | none =>
        rw [List.find?_eq_none] at hfd
        have := hfd _ ((sh.perm _).symm.subset hin)
        simp only [decide_eq_true_eq] at this
        exact absurd hq this
      | some p =>
        have hp := List.find?_some hfd
        simp only [decide_eq_true_eq] at hp
        exact ⟨p, rfl, C12_at_most_one_elected ops l h r ty _ _ hp hq⟩

/-- **C14, no false positives, unrestricted.** A block whose voters do not hold more than two thirds
is never elected, for all `u32` weights. -/
theorem C14_never_below_two_thirds (sh : Shuffle) (ops : List VoteOp) (l : List Node)
    (hd : Distinct l) (hz : Sized l) (hv : VotersIn ops l) (h r : Nat) (ty : VoteType) (hash : Hash)
    (hq : ¬ Quorum l (votedFor ops h r ty hash)) :
    countingVote sh (Authority.update l) (ops.foldl applyVoteOp []) h r ty ≠ .ok (some hash) :=
  fun he => hq (C12_elected_has_two_thirds sh ops l hd hz hv h r ty hash he)

/-- **C14 is false for large weights.** Three validators of weight 2^31, all voting for the same block:
the `u32` sum wraps to 2^31 and the block is not recognised. -/
theorem C14_false_for_large_weights :
    ∃ (ops : List VoteOp) (l : List Node), Distinct l ∧ Sized l ∧
      (∀ n ∈ l, votedFor ops 1 0 .prevote [9] n.address = true) ∧
      countingVote .same (Authority.update l) (ops.foldl applyVoteOp []) 1 0 .prevote = .ok none :=
  ⟨[.vote ⟨[], ⟨1, 0, .prevote, [9]⟩, [1]⟩, .vote ⟨[], ⟨1, 0, .prevote, [9]⟩, [2]⟩,
    .vote ⟨[], ⟨1, 0, .prevote, [9]⟩, [3]⟩],
   [⟨[1], 1, 2 ^ 31⟩, ⟨[2], 1, 2 ^ 31⟩, ⟨[3], 1, 2 ^ 31⟩],
   by unfold Distinct; decide, by unfold Sized; decide, by decide, by decide⟩

/-! ## C39 -/

/-- **C39, flush.** `flush(till)` removes exactly the entries of heights below `till`: lookups at
heights `≥ till` are as before, below there is nothing. -/
theorem C39_flush_votes (c : VoteCollector) (till h r : Nat) (ty : VoteType) :
    (till ≤ h → (∀ sh hash, (c.flush till).getVotes sh h r ty hash = c.getVotes sh h r ty hash) ∧
      (c.flush till).getQcById h r ty = c.getQcById h r ty ∧
      (∀ hash, (c.flush till).getQcByHash h hash ty = c.getQcByHash h hash ty) ∧
      (c.flush till).getVoteMap h r ty = c.getVoteMap h r ty) ∧
    (h < till → (∀ sh hash, (c.flush till).getVotes sh h r ty hash = .error .storageErr) ∧
      (c.flush till).getQcById h r ty = .error .storageErr ∧
      (∀ hash, (c.flush till).getQcByHash h hash ty = none) ∧
      (c.flush till).getVoteMap h r ty = .error .storageErr) := by
  have key := AMap.get?_splitOff c till h
  constructor
  · intro hle
    rw [if_pos hle] at key
    simp [VoteCollector.getVotes, VoteCollector.getQcById, VoteCollector.getQcByHash,
      VoteCollector.getVoteMap, VoteCollector.pool, VoteCollector.flush, key]
  · intro hlt
    rw [if_neg (by omega)] at key
    simp [VoteCollector.getVotes, VoteCollector.getQcById, VoteCollector.getQcByHash,
      VoteCollector.getVoteMap, VoteCollector.pool, VoteCollector.flush, key]

/-- **C39, flush of proposals.** -/
theorem C39_flush_proposals {T : Type} (c : ProposalCollector T) (till h r : Nat) :
    (till ≤ h → (c.flush till).get h r = c.get h r) ∧
    (h < till → (c.flush till).get h r = .error .storageErr) := by
  have key := AMap.get?_splitOff c till h
  constructor
  · intro hle
    rw [if_pos hle] at key
    simp [ProposalCollector.get, ProposalCollector.flush, key]
  · intro hlt
    rw [if_neg (by omega)] at key
    simp [ProposalCollector.get, ProposalCollector.flush, key]

/-- **C39, get_height_proposals.** Returns every stored proposal of that height exactly (in any order)
and removes them; other heights are untouched. The hypothesis (a round occurs once) holds in every
collector built by insertions, see `C39_rounds_once`. -/
theorem C39_get_height_proposals {T : Type} (sh : Shuffle) (c : ProposalCollector T) (h : Nat)
    (hn : ∀ rc, AMap.get? c h = some rc → (AMap.keys rc).Nodup) :
    (∀ l, (c.getHeightProposals sh h).1 = some l →
      ∀ sp, sp ∈ l ↔ ∃ r, c.get h r = .ok sp) ∧
    ((c.getHeightProposals sh h).1 = none → ∀ r, c.get h r = .error .storageErr) ∧
    (∀ r, (c.getHeightProposals sh h).2.get h r = .error .storageErr) ∧
    (∀ h' r, h' ≠ h → (c.getHeightProposals sh h).2.get h' r = c.get h' r) := by
  unfold ProposalCollector.getHeightProposals
  cases hc : AMap.get? c h with
  | none =>
    refine ⟨by simp, ?_, ?_, fun _ _ _ => rfl⟩
    · intro _ r; simp [ProposalCollector.get, hc]
    · intro r; simp [ProposalCollector.get, hc]
  | some rc =>
    have hnd := hn rc hc
    refine ⟨?_, by simp, ?_, ?_⟩
    · intro l hl sp
      simp only [Option.some.injEq] at hl
      subst hl
      rw [(sh.perm _).mem_iff]
      simp only [AMap.values, List.mem_map, ProposalCollector.get, hc, Option.bind_some]
      constructor
      · rintro ⟨⟨r, sp'⟩, hm, rfl⟩
        exact ⟨r, by rw [AMap.get?_of_mem rc hnd hm]⟩
      · rintro ⟨r, hr⟩
        cases hg : AMap.get? rc r with
        | none => rw [hg] at hr; simp at hr
        | some sp' =>
          rw [hg] at hr
          simp only [Except.ok.injEq] at hr
          subst hr
          exact ⟨(r, sp'), AMap.mem_of_get? rc hg, rfl⟩
    · intro r; simp [ProposalCollector.get, AMap.get?_erase]
    · intro h' r hne; simp [ProposalCollector.get, AMap.get?_erase, Ne.symm hne]

/-- The hypothesis of `C39_get_height_proposals` holds initially and is kept by insertions and flushes. -/
theorem C39_rounds_once {T : Type} [DecidableEq T] :
    (∀ h rc, AMap.get? ([] : ProposalCollector T) h = some rc → (AMap.keys rc).Nodup) ∧
    (∀ (c c' : ProposalCollector T) height round sp,
      (∀ h rc, AMap.get? c h = some rc → (AMap.keys rc).Nodup) →
      c.insert height round sp = .ok c' →
      ∀ h rc, AMap.get? c' h = some rc → (AMap.keys rc).Nodup) ∧
    (∀ (c : ProposalCollector T) till,
      (∀ h rc, AMap.get? c h = some rc → (AMap.keys rc).Nodup) →
      ∀ h rc, AMap.get? (c.flush till) h = some rc → (AMap.keys rc).Nodup) := by
  refine ⟨by simp, ?_, ?_⟩
  · intro c c' height round sp hn hi h rc hg
    unfold ProposalCollector.insert at hi
    simp only at hi
    split at hi
    · split at hi
      · simp only [Except.ok.injEq] at hi; subst hi; exact hn h rc hg
      · simp at hi
    · simp only [Except.ok.injEq] at hi
      subst hi
      rw [AMap.get?_insert] at hg
      split at hg
      · simp only [Option.some.injEq] at hg
        subst hg
        apply AMap.nodup_insert
        cases hx : AMap.get? c height with
        | none => simp [AMap.keys]
        | some rc' => exact hn _ _ hx
      · exact hn h rc hg
  · intro c till hn h rc hg
    unfold ProposalCollector.flush at hg
    rw [AMap.get?_splitOff] at hg
    split at hg
    · exact hn h rc hg
    · simp at hg

/-- **C39, get_height_votes, content.** After any history of votes and certificates,
`get_height_votes(h)` returns exactly the first votes of every validator for every round and type of
height `h` and exactly the certificates stored for it, in any order. -/
theorem C39_get_height_votes_content (sh : Shuffle) (ops : List VoteOp) (h : Nat) :
    let c := ops.foldl applyVoteOp []
    match (c.getHeightVotes sh h).1 with
    | some (vs, qcs) =>
      (∀ sv, sv ∈ vs ↔ ∃ r ty, firstVote ops h r ty sv.voter = some sv) ∧
      (∀ qc, qc ∈ qcs ↔ ∃ r ty, c.getQcById h r ty = .ok qc)
    | none => (∀ r ty a, firstVote ops h r ty a = none) ∧
        (∀ r ty, c.getQcById h r ty = .error .storageErr) := by
  intro c
  unfold VoteCollector.getHeightVotes
  have hpool : ∀ r ty, poolD c h r ty = ((AMap.get? c h).bind (fun v => (v.general.get? r).map
      (fun rc => rc.votes ty))).getD .new := fun r ty => rfl
  cases hc : AMap.get? c h with
  | none =>
    refine ⟨fun r ty a => ?_, fun r ty => by simp [VoteCollector.getQcById, hc]⟩
    have := (pool_inv ops h r ty).addr a
    rw [← this]
    show (poolD c h r ty).byAddress.get? a = none
    rw [hpool, hc]; rfl
  | some v =>
    have hgn : v.general.keys.Nodup := general_nodup ops h v hc
    have hrc : ∀ rc, rc ∈ sh.run (AMap.values v.general) ↔ ∃ r, v.general.get? r = some rc := by
      intro rc
      rw [(sh.perm _).mem_iff]
      simp only [AMap.values, List.mem_map]
      constructor
      · rintro ⟨⟨r, rc'⟩, hm, rfl⟩; exact ⟨r, AMap.get?_of_mem _ hgn hm⟩
      · rintro ⟨r, hr⟩; exact ⟨(r, rc), AMap.mem_of_get? _ hr, rfl⟩
    have hvotes : ∀ r rc, v.general.get? r = some rc → ∀ ty sv,
        sv ∈ (rc.votes ty).getAllVotes sh ↔ firstVote ops h r ty sv.voter = some sv := by
      intro r rc hr ty sv
      have hi := pool_inv ops h r ty
      have hp : poolD (ops.foldl applyVoteOp []) h r ty = rc.votes ty := by
        show poolD c h r ty = _
        rw [hpool, hc]; simp [hr]
      rw [hp] at hi
      unfold Votes.getAllVotes
      rw [(sh.perm _).mem_iff]
      simp only [AMap.values, List.mem_map]
      constructor
      · rintro ⟨⟨a, sv'⟩, hm, rfl⟩
        have h1 := AMap.get?_of_mem _ hi.addrNodup hm
        rw [hi.addr] at h1
        have := hi.voter _ _ h1
        simp only at this ⊢
        rw [this]; exact h1
      · intro hf
        rw [← hi.addr] at hf
        exact ⟨_, AMap.mem_of_get? _ hf, rfl⟩
    refine ⟨?_, ?_⟩
    · intro sv
      simp only [List.mem_flatMap, List.mem_append]
      constructor
      · rintro ⟨rc, hm, hsv⟩
        obtain ⟨r, hr⟩ := (hrc rc).1 hm
        rcases hsv with hsv | hsv
        · exact ⟨r, .prevote, (hvotes r rc hr .prevote sv).1 hsv⟩
        · exact ⟨r, .precommit, (hvotes r rc hr .precommit sv).1 hsv⟩
      · rintro ⟨r, ty, hf⟩
        cases hr : v.general.get? r with
        | none =>
          have := (pool_inv ops h r ty).addr sv.voter
          rw [hf] at this
          have hp : poolD (ops.foldl applyVoteOp []) h r ty = Votes.new := by
            show poolD c h r ty = _
            rw [hpool, hc]; simp [hr]
          rw [hp] at this
          simp [Votes.new] at this
        | some rc =>
          refine ⟨rc, (hrc rc).2 ⟨r, hr⟩, ?_⟩
          have := (hvotes r rc hr ty sv).2 hf
          cases ty
          · exact Or.inl this
          · exact Or.inr this
    · intro qc
      have hq : ∀ r ty, c.getQcById h r ty = .ok qc ↔
          ∃ rc, v.general.get? r = some rc ∧ rc.qc.get ty = some qc := by
        intro r ty
        simp only [VoteCollector.getQcById, hc, Option.bind_some]
        cases hr : v.general.get? r with
        | none => simp
        | some rc =>
          simp only [Option.bind_some, Option.some.injEq, exists_eq_left']
          cases rc.qc.get ty <;> simp
      simp only [List.mem_flatMap, QuorumCertificate.getAll, List.mem_append, Option.mem_toList]
      constructor
      · rintro ⟨rc, hm, hqc⟩
        obtain ⟨r, hr⟩ := (hrc rc).1 hm
        rcases hqc with hqc | hqc
        · exact ⟨r, .prevote, (hq r .prevote).2 ⟨rc, hr, hqc⟩⟩
        · exact ⟨r, .precommit, (hq r .precommit).2 ⟨rc, hr, hqc⟩⟩
      · rintro ⟨r, ty, hg⟩
        obtain ⟨rc, hr, he⟩ := (hq r ty).1 hg
        refine ⟨rc, (hrc rc).2 ⟨r, hr⟩, ?_⟩
        cases ty
        · exact Or.inl he
        · exact Or.inr he

example : ((DemoVotes.ops.foldl applyVoteOp []).getHeightVotes .same 7).1.map
    (fun p => (p.1.map SignedVote.voter, p.2.length)) =
    some ([[3], [1], [2], [4], [2], [2]], 1) := by decide

/-- **C39, get_height_votes.** `get_height_votes(h)` removes everything of height `h`; other heights
are untouched. -/
theorem C39_get_height_votes_removes (sh : Shuffle) (c : VoteCollector) (h : Nat) :
    (∀ r ty, (∀ sh' hash, (c.getHeightVotes sh h).2.getVotes sh' h r ty hash = .error .storageErr) ∧
      (c.getHeightVotes sh h).2.getQcById h r ty = .error .storageErr) ∧
    (∀ h' r ty, h' ≠ h →
      (∀ sh' hash, (c.getHeightVotes sh h).2.getVotes sh' h' r ty hash = c.getVotes sh' h' r ty hash) ∧
      (c.getHeightVotes sh h).2.getQcById h' r ty = c.getQcById h' r ty ∧
      (∀ hash, (c.getHeightVotes sh h).2.getQcByHash h' hash ty = c.getQcByHash h' hash ty)) := by
  unfold VoteCollector.getHeightVotes
  cases hc : AMap.get? c h with
  | none =>
    simp [VoteCollector.getVotes, VoteCollector.getQcById, VoteCollector.getQcByHash,
      VoteCollector.pool, hc]
  | some v =>
    refine ⟨?_, ?_⟩
    · intro r ty
      simp [VoteCollector.getVotes, VoteCollector.getQcById, VoteCollector.pool, AMap.get?_erase]
    · intro h' r ty hne
      simp [VoteCollector.getVotes, VoteCollector.getQcById, VoteCollector.getQcByHash,
        VoteCollector.pool, AMap.get?_erase, Ne.symm hne]

end Overlord
