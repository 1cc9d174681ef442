import Verif.Proofs.CodecPanic
import Verif.Model.Hex

/-!
# C22–C25, C47: encodings
-/

set_option linter.unusedSimpArgs false

namespace Overlord
open Spec

deriving instance DecidableEq for Except

/-! A content type whose codec is faithful, for the examples: contents are byte strings. -/
namespace CodecDemo

instance : ContentCodec (List UInt8) := ⟨some, some⟩

theorem faithful : Faithful (List UInt8) := fun x b h => by cases h; rfl

def qc : AggregatedVote :=
  { signature := ⟨[1, 2, 3], [0xe0]⟩, voteType := .prevote, height := 300, round := 2 ^ 64 - 1,
    blockHash := List.replicate 60 7, leader := [0x80] }
def proposal : Proposal (List UInt8) :=
  { height := 300, round := 0, content := [5, 6], blockHash := List.replicate 60 7,
    lock := some ⟨2, qc⟩, proposer := [1] }
def choke : Choke := { height := 3, round := 1, «from» := .chokeQC ⟨3, 0, [9], [[1], [], [200]]⟩ }
def wal : WalInfo (List UInt8) :=
  { height := 3, round := 1, step := .precommit, lock := some ⟨0, qc, []⟩, «from» := .prevoteQC qc }
def status : Status :=
  { height := 9, interval := some 3000, timerConfig := some ⟨10, 0, 1, 7⟩,
    authorityList := [⟨[1], 1, 4⟩, ⟨[], 0, 2 ^ 32 - 1⟩] }

end CodecDemo

/-! ## C22 — encode, then decode

`Fits`: the encoding is shorter than `2^64` bytes; the `…R` predicates say that the integer fields are
values of their Rust types. `Faithful`: the application's codec of contents round-trips. -/

section
variable {T : Type} [ContentCodec T]

theorem C22_signed_proposal (hT : Faithful T) (x : SignedProposal T) (b : Bytes)
    (hr : SignedProposalR x) (he : encSignedProposal x = some b) (h : Fits b) :
    decSignedProposal b = .ok x := (rt_signedProposal hT x b hr he h).1
theorem C22_proposal (hT : Faithful T) (x : Proposal T) (b : Bytes)
    (hr : ProposalR x) (he : encProposal x = some b) (h : Fits b) :
    decProposal b = .ok x := (rt_proposal hT x b hr he h).1
theorem C22_commit (hT : Faithful T) (x : Commit T) (b : Bytes)
    (hr : CommitR x) (he : encCommit x = some b) (h : Fits b) :
    decCommit b = .ok x := (rt_commit hT x b hr he h).1
theorem C22_wal_lock (hT : Faithful T) (x : WalLock T) (b : Bytes)
    (hr : WalLockR x) (he : encWalLock x = some b) (h : Fits b) :
    decWalLock b = .ok x := (rt_walLock hT x b hr he h).1
theorem C22_wal_record (hT : Faithful T) (x : WalInfo T) (b : Bytes)
    (hr : WalInfoR x) (he : encWalInfo x = some b) (h : Fits b) :
    decWalInfo b = .ok x := (rt_walInfo hT x b hr he h).1
/-- The encoders of proposals, commits and WAL records only fail when the content's encoder fails. -/
theorem C22_encoders_total (hE : ∀ x : T, (ContentCodec.encode x).isSome) (p : SignedProposal T)
    (c : Commit T) (w : WalInfo T) :
    (encSignedProposal p).isSome ∧ (encCommit c).isSome ∧ (encWalInfo w).isSome := by
  refine ⟨?_, ?_, ?_⟩
  · simp [encSignedProposal, encProposal, hE]
  · simp [encCommit, hE]
  · unfold encWalInfo encWalLock?
    cases w.lock with
    | none => rfl
    | some l => simp [encWalLock, hE]
end

theorem C22_signature (x : AggregatedSignature) (h : Fits (encAggSig x)) :
    decAggSig (encAggSig x) = .ok x := (rt_aggSig x h).1
theorem C22_certificate (x : AggregatedVote) (hr : AggVoteR x) (h : Fits (encAggVote x)) :
    decAggVote (encAggVote x) = .ok x := (rt_aggVote x hr h).1
theorem C22_polc (x : PoLC) (hr : PoLCR x) (h : Fits (encPoLC x)) :
    decPoLC (encPoLC x) = .ok x := (rt_polc x hr h).1
theorem C22_vote (x : Vote) (hr : VoteR x) (h : Fits (encVote x)) :
    decVote (encVote x) = .ok x := (rt_vote x hr h).1
theorem C22_signed_vote (x : SignedVote) (hr : SignedVoteR x) (h : Fits (encSignedVote x)) :
    decSignedVote (encSignedVote x) = .ok x := (rt_signedVote x hr h).1
theorem C22_proof (x : Proof) (hr : ProofR x) (h : Fits (encProof x)) :
    decProof (encProof x) = .ok x := (rt_proof x hr h).1
theorem C22_duration (x : DurationConfig) (hr : DurationR x) (h : Fits (encDuration x)) :
    decDuration (encDuration x) = .ok x := (rt_duration x hr h).1
theorem C22_node (x : Node) (hr : NodeR x) (h : Fits (encNode x)) :
    decNode (encNode x) = .ok x := (rt_node x hr h).1
theorem C22_choke_certificate (x : AggregatedChoke) (hr : AggChokeR x) (h : Fits (encAggChoke x)) :
    decAggChoke (encAggChoke x) = .ok x := (rt_aggChoke x hr h).1
theorem C22_update_from (x : UpdateFrom) (hr : UpdateFromR x) (h : Fits (encUpdateFrom x)) :
    decUpdateFrom (encUpdateFrom x) = .ok x := (rt_updateFrom x hr h).1
theorem C22_choke (x : Choke) (hr : ChokeR x) (h : Fits (encChoke x)) :
    decChoke (encChoke x) = .ok x := (rt_choke x hr h).1
theorem C22_signed_choke (x : SignedChoke) (hr : SignedChokeR x) (h : Fits (encSignedChoke x)) :
    decSignedChoke (encSignedChoke x) = .ok x := (rt_signedChoke x hr h).1

namespace CodecDemo

theorem qcR : AggVoteR qc := by simp [AggVoteR, qc]
/-- The hypotheses of the round trips hold of the examples, whose encodings have long forms. -/
example : Fits (encAggVote qc) ∧ 55 < (encAggVote qc).length ∧ AggVoteR qc := by
  refine ⟨?_, ?_, qcR⟩ <;> try simp only [Fits]
  all_goals decide +kernel
example : SignedProposalR ⟨[1, 2], proposal⟩ ∧
    ∃ b, encSignedProposal (⟨[1, 2], proposal⟩ : SignedProposal (List UInt8)) = some b ∧ Fits b ∧
      100 < b.length := by
  refine ⟨⟨by decide, by decide, fun l hl => by cases hl; exact ⟨by decide, qcR⟩⟩,
    _, rfl, ?_, ?_⟩ <;> try simp only [Fits]
  all_goals decide +kernel
example : SignedChokeR ⟨[4], choke, [1]⟩ ∧ Fits (encSignedChoke ⟨[4], choke, [1]⟩) := by
  refine ⟨⟨by decide, by decide, by decide, by decide⟩, ?_⟩
  simp only [Fits]; decide +kernel
example : WalInfoR wal ∧ ∃ b, encWalInfo wal = some b ∧ Fits b := by
  refine ⟨⟨by decide, by decide, fun l hl => by cases hl; exact ⟨by decide, qcR⟩, qcR⟩, _, rfl, ?_⟩
  simp only [Fits]; decide +kernel
example : CommitR (⟨3, [], ⟨3, 1, [7], ⟨[1], [2]⟩⟩⟩ : Commit (List UInt8)) ∧
    SignedVoteR ⟨[1], ⟨3, 0, .precommit, []⟩, [2]⟩ := by
  exact ⟨⟨by decide, by decide, by decide⟩, by decide, by decide⟩
end CodecDemo

/-! ## C23 — rich status -/

/-- A status round-trips unless its interval is `Some(0)` or its timer configuration is
`Some` of four zeros. -/
theorem C23_partial (x : Status) (hr : StatusR x) (h : Fits (encStatus x))
    (h1 : x.interval ≠ some 0) (h2 : x.timerConfig ≠ some ⟨0, 0, 0, 0⟩) :
    decStatus (encStatus x) = .ok x := by
  rw [(rt_status_raw x hr h).1]
  obtain ⟨ht, i, c, a⟩ := x
  have e1 : (if i.getD 0 = 0 then none else some (i.getD 0)) = i := by
    cases i with
    | none => rfl
    | some i => simp only [Option.getD_some]; rw [if_neg]; rintro rfl; exact h1 rfl
  have e2 : (if c.getD .zero = .zero then none else some (c.getD .zero)) = c := by
    cases c with
    | none => rfl
    | some c => simp only [Option.getD_some]; rw [if_neg]; rintro rfl; exact h2 rfl
  simp only [e1, e2]

/-- In exactly the excluded cases it does not: the field comes back as `None`. -/
theorem C23_exact (x : Status) (hr : StatusR x) (h : Fits (encStatus x)) :
    decStatus (encStatus x) = .ok x ↔
      x.interval ≠ some 0 ∧ x.timerConfig ≠ some ⟨0, 0, 0, 0⟩ := by
  refine ⟨fun he => ?_, fun he => C23_partial x hr h he.1 he.2⟩
  rw [(rt_status_raw x hr h).1] at he
  simp only [Except.ok.injEq] at he
  refine ⟨fun hi => ?_, fun hc => ?_⟩
  · have := congrArg Status.interval he
    simp [hi] at this
  · have := congrArg Status.timerConfig he
    simp [hc, DurationConfig.zero] at this

/-- Height and authority list always survive, and no status fails to decode. -/
theorem C23_other_fields (x : Status) (hr : StatusR x) (h : Fits (encStatus x)) :
    ∃ y, decStatus (encStatus x) = .ok y ∧ y.height = x.height ∧ y.authorityList = x.authorityList ∧
      y.interval.getD 0 = x.interval.getD 0 ∧
      y.timerConfig.getD ⟨0, 0, 0, 0⟩ = x.timerConfig.getD ⟨0, 0, 0, 0⟩ := by
  refine ⟨_, (rt_status_raw x hr h).1, rfl, rfl, ?_, ?_⟩
  · simp only; split
    · rename_i h; simp [h]
    · rfl
  · show (if x.timerConfig.getD .zero = .zero then none else some (x.timerConfig.getD .zero)).getD .zero =
      x.timerConfig.getD .zero
    by_cases hz : x.timerConfig.getD .zero = .zero
    · rw [if_pos hz, hz]; rfl
    · rw [if_neg hz]; rfl

/-- The full claim is false of the code. -/
theorem C23_fails : ∃ x : Status, StatusR x ∧ Fits (encStatus x) ∧ decStatus (encStatus x) ≠ .ok x :=
  ⟨⟨1, some 0, none, []⟩, by simp [StatusR], by simp only [Fits]; decide +kernel, by decide +kernel⟩

example : StatusR CodecDemo.status ∧ Fits (encStatus CodecDemo.status) ∧
    CodecDemo.status.interval ≠ some 0 ∧ CodecDemo.status.timerConfig ≠ some ⟨0, 0, 0, 0⟩ := by
  refine ⟨⟨by decide, fun i h => by cases h; decide, fun c h => by cases h; simp [DurationR], ?_⟩,
    by simp only [Fits]; decide +kernel, by decide, by decide⟩
  intro n hn; simp [CodecDemo.status] at hn; rcases hn with rfl | rfl <;> simp [NodeR]

/-! ## C24 — the bytes that are hashed and signed

Votes and proposals are signed over (the hash of) their encodings, chokes over the encoding of
`HashChoke` (process.rs:723, :1387, :1400). -/

theorem C24_vote_injective (x y : Vote) (hx : VoteR x) (hy : VoteR y) (hf : Fits (encVote x))
    (h : encVote x = encVote y) : x = y := by
  have h1 := C22_vote x hx hf
  rw [h] at h1 hf
  have h2 := C22_vote y hy hf
  rw [h1] at h2; exact Except.ok.inj h2

theorem C24_proposal_injective {T} [ContentCodec T] (hT : Faithful T) (x y : Proposal T) (b : Bytes)
    (hx : ProposalR x) (hy : ProposalR y) (hf : Fits b)
    (h1 : encProposal x = some b) (h2 : encProposal y = some b) : x = y := by
  have g1 := C22_proposal hT x b hx h1 hf
  have g2 := C22_proposal hT y b hy h2 hf
  rw [g1] at g2; exact Except.ok.inj g2

theorem hashChoke_items (x : HashChoke) :
    rlpItems (encHashChoke x) = [encInt x.height, encInt x.round] := by
  refine rlpItems_encList ?_ ?_
  · have h1 : (encInt x.height).length ≤ 56 := encStr_short (Nat.le_trans (beN_length _ _) (by decide))
    have h2 : (encInt x.round).length ≤ 56 := encStr_short (Nat.le_trans (beN_length _ _) (by decide))
    have h3 : ∀ n, n < 1000 → (rlpHeader 0xc0 n).length ≤ 10 := by
      intro n _; unfold rlpHeader; split
      · simp
      · have := beN_length 8 n
        simp only [be, List.length_cons]; omega
    have h4 := h3 ([encInt x.height, encInt x.round].flatten.length) (by simp; omega)
    simp only [encList, List.length_append] at h4 ⊢
    simp only [List.flatten_cons, List.flatten_nil, List.length_append, List.append_nil,
      List.length_nil] at h4 ⊢
    unfold U64; omega
  · simp only [List.forall_mem_cons, List.not_mem_nil, false_implies, implies_true, and_true]
    exact ⟨encInt_isItem _, encInt_isItem _⟩

theorem C24_hash_choke_injective (x y : HashChoke) (hx : HashChokeR x) (hy : HashChokeR y)
    (h : encHashChoke x = encHashChoke y) : x = y := by
  have g := hashChoke_items x
  rw [h, hashChoke_items y] at g
  simp only [List.cons.injEq, and_true] at g
  have e1 := decInt8_enc hx.1
  have e2 := decInt8_enc hx.2
  rw [← g.1, decInt8_enc hy.1] at e1
  rw [← g.2, decInt8_enc hy.2] at e2
  obtain ⟨a, b⟩ := x; obtain ⟨c, d⟩ := y
  simp only [Except.ok.injEq] at e1 e2
  subst e1; subst e2; rfl

/-- Signing bytes of different kinds of message differ. -/
theorem C24_kinds_differ {T} [ContentCodec T] (hT : Faithful T) (v : Vote) (p : Proposal T)
    (c : HashChoke) (b : Bytes) (hv : VoteR v) (hp : ProposalR p)
    (hb : encProposal p = some b) (hf : Fits (encVote v)) (hf' : Fits b) :
    encVote v ≠ b ∧ encVote v ≠ encHashChoke c ∧ b ≠ encHashChoke c := by
  have lv : (rlpItems (encVote v)).length = 4 := by
    refine Decidable.byContradiction fun hn => ?_
    have := (rt_vote v hv hf).1
    unfold decVote at this
    rw [listOf, if_neg (fun h => hn h.2)] at this
    cases this
  have lp : (rlpItems b).length = 6 := by
    refine Decidable.byContradiction fun hn => ?_
    have := (rt_proposal hT p b hp hb hf').1
    unfold decProposal at this
    rw [listOf, if_neg (fun h => hn h.2)] at this
    cases this
  have lc : (rlpItems (encHashChoke c)).length = 2 := by rw [hashChoke_items]; rfl
  refine ⟨fun e => ?_, fun e => ?_, fun e => ?_⟩
  · rw [e] at lv; omega
  · rw [e] at lv; omega
  · rw [e] at lp; omega

/-- A choke signature covers only the height and round: the justification `from` is not signed, so the
part of the claim about chokes is false of the code. -/
theorem C24_choke_from_unsigned_fails :
    ∃ x y : Choke, ChokeR x ∧ ChokeR y ∧ x ≠ y ∧ encHashChoke x.toHash = encHashChoke y.toHash := by
  refine ⟨⟨3, 1, .prevoteQC CodecDemo.qc⟩, ⟨3, 1, .precommitQC CodecDemo.qc⟩,
    ⟨by decide, by decide, CodecDemo.qcR⟩, ⟨by decide, by decide, CodecDemo.qcR⟩, ?_, rfl⟩
  intro h; cases h

/-- What a choke signature does bind: the height and the round. -/
theorem C24_choke_partial (x y : Choke) (hx : ChokeR x) (hy : ChokeR y)
    (h : encHashChoke x.toHash = encHashChoke y.toHash) : x.height = y.height ∧ x.round = y.round := by
  have := C24_hash_choke_injective x.toHash y.toHash ⟨hx.1, hx.2.1⟩ ⟨hy.1, hy.2.1⟩ h
  exact ⟨congrArg HashChoke.height this, congrArg HashChoke.round this⟩

example : VoteR ⟨3, 0, .prevote, [1]⟩ ∧ ProposalR CodecDemo.proposal ∧
    Fits (encVote ⟨3, 0, .prevote, [1]⟩) ∧ ∃ b, encProposal CodecDemo.proposal = some b ∧ Fits b := by
  refine ⟨by simp [VoteR], ⟨by decide, by decide, fun l hl => by
    cases hl; exact ⟨by decide, CodecDemo.qcR⟩⟩, by simp only [Fits]; decide +kernel, _, rfl, ?_⟩
  simp only [Fits]; decide +kernel

/-! ## C25 — decoding arbitrary bytes -/

/-- These decoders return a value or an error for every byte string. -/
theorem C25_partial {T} [ContentCodec T] (bs : Bytes) :
    (decSignedProposal bs : Except DErr (SignedProposal T)) ≠ .error .panic ∧
    (decProposal bs : Except DErr (Proposal T)) ≠ .error .panic ∧
    decSignedVote bs ≠ .error .panic ∧ decVote bs ≠ .error .panic ∧
    decAggVote bs ≠ .error .panic ∧ decAggSig bs ≠ .error .panic ∧ decPoLC bs ≠ .error .panic ∧
    (decCommit bs : Except DErr (Commit T)) ≠ .error .panic ∧ decProof bs ≠ .error .panic ∧
    decStatus bs ≠ .error .panic ∧ decNode bs ≠ .error .panic ∧ decDuration bs ≠ .error .panic ∧
    decAggChoke bs ≠ .error .panic ∧ (decWalLock bs : Except DErr (WalLock T)) ≠ .error .panic :=
  ⟨np_signedProposal bs, np_proposal bs, np_signedVote bs, np_vote bs, np_aggVote bs, np_aggSig bs,
    np_polc bs, np_commit bs, np_proof bs, np_status bs, np_node bs, np_duration bs, np_aggChoke bs,
    np_walLock bs⟩

/-- The other decoders panic only on a justification whose tag is above 2, or on a step above 4. -/
theorem C25_choke_panics_only_on_tag (bs : Bytes) :
    (decSignedChoke bs = .error .panic →
      ∃ s c a, listOf 3 bs = .ok [s, c, a] ∧ decChoke c = .error .panic) ∧
    (decChoke bs = .error .panic →
      ∃ h r f, listOf 3 bs = .ok [h, r, f] ∧ decUpdateFrom f = .error .panic) ∧
    (decUpdateFrom bs = .error .panic ↔
      ∃ a b t, listOf 2 bs = .ok [a, b] ∧ decInt 1 a = .ok t ∧ 2 < t) := by
  refine ⟨?_, ?_, updateFrom_panic_iff bs⟩
  · intro h
    unfold decSignedChoke at h
    cases hl : listOf 3 bs with
    | error e => rw [hl] at h; cases e <;> first | exact absurd hl (np_listOf _ _) | cases h
    | ok l =>
      rw [hl] at h; simp only [except_bind_ok] at h
      split at h
      · rename_i a b c
        refine ⟨a, b, c, rfl, Classical.byContradiction fun hn => ?_⟩
        exact absurd h (np_bind (np_decStr _) fun _ _ => np_bind hn fun _ _ =>
          np_bind (np_decStr _) fun _ _ => np_pure _)
      · cases h
  · intro h
    unfold decChoke at h
    cases hl : listOf 3 bs with
    | error e => rw [hl] at h; cases e <;> first | exact absurd hl (np_listOf _ _) | cases h
    | ok l =>
      rw [hl] at h; simp only [except_bind_ok] at h
      split at h
      · rename_i a b c
        refine ⟨a, b, c, rfl, Classical.byContradiction fun hn => ?_⟩
        exact absurd h (np_bind (np_decInt _ _) fun _ _ => np_bind (np_decInt _ _) fun _ _ =>
          np_bind hn fun _ _ => np_pure _)
      · cases h

theorem C25_wal_panics_only_on_tag {T} [ContentCodec T] (bs : Bytes)
    (h : (decWalInfo bs : Except DErr (WalInfo T)) = .error .panic) :
    ∃ x y st l f, listOf 5 bs = .ok [x, y, st, l, f] ∧
      ((∃ t, decInt 1 st = .ok t ∧ 4 < t) ∨ decUpdateFrom f = .error .panic) := by
  unfold decWalInfo at h
  cases hl : listOf 5 bs with
  | error e => rw [hl] at h; cases e <;> first | exact absurd hl (np_listOf _ _) | cases h
  | ok l =>
    rw [hl] at h; simp only [except_bind_ok] at h
    split at h
    · rename_i a b c d e
      refine ⟨a, b, c, d, e, rfl, ?_⟩
      refine Classical.byContradiction fun hn => ?_
      rw [not_or] at hn
      refine absurd h (np_bind (np_decInt _ _) fun _ _ => np_bind (np_decInt _ _) fun _ _ =>
        np_bind (np_decInt _ _) fun t ht => np_bind ?_ fun _ _ =>
        np_bind (np_decOption np_walLock _) fun _ _ => np_bind hn.2 fun _ _ => np_pure _)
      have : t ≤ 4 := by
        refine Decidable.byContradiction fun hh => hn.1 ⟨t, ht, by omega⟩
      rcases t with _ | _ | _ | _ | _ | t
      · exact np_ok _
      · exact np_ok _
      · exact np_ok _
      · exact np_ok _
      · exact np_ok _
      · omega
    · cases h

/-- The full claim is false of the code: nine bytes of a signed choke from the network, and a WAL record
with step 5, panic. -/
theorem C25_fails :
    decSignedChoke [0xc8, 0x80, 0xc5, 0x03, 0x01, 0xc2, 0x03, 0x80, 0x01] = .error .panic ∧
    (decWalInfo [0xc7, 0x03, 0x01, 0x05, 0xc0, 0xc2, 0x00, 0x80] :
      Except DErr (WalInfo (List UInt8))) = .error .panic := by
  constructor <;> decide +kernel

/-- Malformed bytes of the other kinds are rejected with an error, not a panic. -/
example : decSignedVote [0xc3, 0x80, 0x80] = .error .bad ∧ decStatus [] = .error .bad := by
  constructor <;> decide +kernel

/-! ## C47 — hexadecimal form -/

theorem hexVal_hexDigit {n : Nat} (h : n < 16) : hexVal (hexDigit n) = some n := by
  have : ∀ n : Fin 16, hexVal (hexDigit n.1) = some n.1 := by decide
  exact this ⟨n, h⟩

theorem C47_bytes_round_trip (b : Bytes) : hexDecode (hexEncode b) = some b := by
  induction b with
  | nil => rfl
  | cons x b ih =>
    have h1 : x.toNat / 16 < 16 := by have := x.toNat_lt; omega
    have h2 : x.toNat % 16 < 16 := by omega
    have ih' : hexDecode (List.flatMap (fun x : UInt8 =>
      [hexDigit (x.toNat / 16), hexDigit (x.toNat % 16)]) b) = some b := ih
    simp only [hexEncode, List.flatMap_cons, List.cons_append, List.nil_append, hexDecode,
      hexVal_hexDigit h1, hexVal_hexDigit h2, ih']
    have : x.toNat / 16 * 16 + x.toNat % 16 = x.toNat := by omega
    rw [this]; simp

theorem C47_field_round_trip (b : Bytes) : deHex (serHex b) = some b := C47_bytes_round_trip b

/-- Lists of byte strings come back with the same elements in the same order, in formats that keep
field names and in formats that do not. -/
theorem C47_list_round_trip (named : Bool) (l : List Bytes) :
    deMultiHex (serMultiHex named l) = some l := by
  have hin : ∀ v, deInner (serInner named v) = some v := by
    intro v; cases named <;> simp [serInner, deInner]
  unfold deMultiHex serMultiHex
  rw [hin]
  simp only
  induction l with
  | nil => rfl
  | cons b l ih =>
    simp only [List.map_cons, List.mapM_cons, hin, Option.bind_some, C47_field_round_trip, ih]
    rfl

/-- Two digits per byte. -/
theorem C47_length (b : Bytes) : (hexEncode b).length = 2 * b.length := by
  induction b with
  | nil => rfl
  | cons x b ih => simp only [hexEncode, List.flatMap_cons, List.length_append, List.length_cons,
      List.length_nil] at *; omega

/-- Odd lengths and other characters are rejected. -/
example : hexEncode [0x0f, 0xa0] = "0fa0".toUTF8.toList ∧ hexDecode [48] = none ∧
    hexDecode [48, 120] = none ∧ hexDecode [65, 70] = some [0xaf] := by decide +kernel

end Overlord
