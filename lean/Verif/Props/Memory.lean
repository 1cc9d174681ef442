import Verif.Proofs.Flood

/-!
# C66: what a node holds in memory is bounded

`Spec/Memory.lean` says what a node holds. Votes and proposals are bounded, whatever anybody sends. Certificates, blocks and
chokes are not.
-/

set_option linter.unusedSectionVars false
set_option linter.unusedVariables false

namespace Overlord
open Spec

variable {T : Type} [ContentCodec T] [DecidableEq T]

/-- C66, votes (partial: see the counterexamples below for what else a node holds). From the start of a node, for any messages, events and answers: if the storage
works, all validator lists are within `U` and the rounds do not exceed `B`, the node holds at most `14 · (B + 11) · |U|` votes,
all of them for the slots of seven heights in a row, of validators. -/
theorem C66_votes_bounded_partial {U : List Address} {B : Nat} {addr : Address} {h0 iv : Nat} {l : List Node} {e0 : Env T}
    {ins : List (Env T × Input T)} {s : State T} (hu : addr ∈ U) (hl : ∀ a ∈ l.map Node.address, a ∈ U)
    (hx : ∀ x ∈ (e0, .start) :: ins, ListsWithin U x.1 x.2 ∧ RoundsWithin B x.1 x.2 ∧ Stores x.1) (hi : ∀ x ∈ ins, x.2 ≠ .start)
    (hs : (State.new addr h0 iv l).after ((e0, .start) :: ins) = some s) :
    (∀ slots : List VoteSlot, slots.Nodup → (∀ x ∈ slots, HoldsVote s x) → slots.length ≤ 14 * (B + 11) * U.length) ∧
    ∃ low, low ≤ s.height ∧ (s.consensusPower = true → low = s.height) ∧
      ∀ x, HoldsVote s x → low - 1 ≤ x.height ∧ x.height ≤ low + 5 ∧ x.round ≤ B + 10 ∧ x.voter ∈ U := by
  obtain ⟨h1, h⟩ := Mem.inv hu hl hx hi hs
  refine ⟨fun slots hn hall => Mem.count_votes hn fun x hx => Mem.holds_vote h (hall x hx), h1, h.low, h.power, fun x hx => ?_⟩
  obtain ⟨⟨k1, k2⟩, k3, k4⟩ := Mem.holds_vote h hx
  exact ⟨k1, k2, k3, k4⟩

/-- C66, proposals (partial as above): at most `7 · (B + 11)`. -/
theorem C66_proposals_bounded_partial {U : List Address} {B : Nat} {addr : Address} {h0 iv : Nat} {l : List Node} {e0 : Env T}
    {ins : List (Env T × Input T)} {s : State T} (hu : addr ∈ U) (hl : ∀ a ∈ l.map Node.address, a ∈ U)
    (hx : ∀ x ∈ (e0, .start) :: ins, ListsWithin U x.1 x.2 ∧ RoundsWithin B x.1 x.2 ∧ Stores x.1) (hi : ∀ x ∈ ins, x.2 ≠ .start)
    (hs : (State.new addr h0 iv l).after ((e0, .start) :: ins) = some s) :
    ∀ slots : List (Nat × Nat), slots.Nodup → (∀ x ∈ slots, HoldsProposal s x) → slots.length ≤ 7 * (B + 11) := by
  obtain ⟨h1, h⟩ := Mem.inv hu hl hx hi hs
  exact fun slots hn hall => Mem.count_proposals hn fun x hx => Mem.holds_proposal h (hall x hx)

namespace MemDemo
open StDemo

/-- Votes of validators 2 and 4 for the present, and of 3 for a later height; a vote from outside. -/
def ins : List (Env C × Input C) :=
  [(env, .verified (.signedVote (vote 2 7 0 .prevote [5]))), (env, .verified (.signedVote (vote 4 7 0 .prevote [5]))),
    (env, .verified (.signedVote (vote 3 12 10 .precommit [5]))), (env, .verified (.signedVote (vote 9 7 0 .prevote [5]))),
    (env, .verified (.signedProposal (prop 2 7 0 [5, 5] [5]))), (env, .verified (.signedVote (vote 3 13 0 .precommit [5])))]

def U : List Address := [[1], [2], [3], [4]]

theorem within (i : Input C) (hi : ∀ st, i ≠ .verified (.richStatus st)) (hn : ∀ ev, i ≠ .event ev) : ListsWithin U env i ∧ RoundsWithin 0 env i ∧ Stores env := by
  refine ⟨⟨fun st h => absurd h (hi st), fun h c st hc => ?_⟩, ⟨fun _ _ _ _ _ _ _ h => absurd h (hn _), fun b w _ h => by cases h⟩, fun _ => rfl⟩
  simp only [env, Option.some.injEq] at hc
  subst hc
  show ∀ a ∈ nodes.map Node.address, a ∈ U
  decide

end MemDemo

open StDemo MemDemo in
/-- The hypotheses are met: three votes are held, one of them five heights ahead, and a proposal; the vote from outside and the vote six heights ahead are not. -/
example : (∀ x ∈ (env, .start) :: MemDemo.ins, ListsWithin MemDemo.U x.1 x.2 ∧ RoundsWithin 0 x.1 x.2 ∧ Stores x.1) ∧ (∀ x ∈ MemDemo.ins, x.2 ≠ .start) ∧
    ∃ s, (State.new [1] 7 3000 nodes).after ((env, .start) :: MemDemo.ins) = some s ∧ HoldsVote s ⟨7, 0, .prevote, [2]⟩ ∧ HoldsVote s ⟨7, 0, .prevote, [4]⟩ ∧
      HoldsVote s ⟨12, 10, .precommit, [3]⟩ ∧ HoldsProposal s (7, 0) ∧ ¬ HoldsVote s ⟨7, 0, .prevote, [9]⟩ ∧ ¬ HoldsVote s ⟨13, 0, .precommit, [3]⟩ := by
  refine ⟨?_, by decide, ?_⟩
  · intro x hx
    have : x.1 = env ∧ (∀ st, x.2 ≠ .verified (.richStatus st)) ∧ ∀ ev, x.2 ≠ .event ev := by
      simp only [MemDemo.ins, List.mem_cons, List.not_mem_nil, or_false] at hx
      rcases hx with rfl | rfl | rfl | rfl | rfl | rfl | rfl <;> exact ⟨rfl, by simp, by simp⟩
    rw [this.1]
    exact MemDemo.within _ this.2.1 this.2.2
  · have hd : (match (State.new [1] 7 3000 nodes).after ((env, .start) :: MemDemo.ins) with
      | some s => (keptVote s 7 0 .prevote [2]).isSome && (keptVote s 7 0 .prevote [4]).isSome && (keptVote s 12 10 .precommit [3]).isSome &&
          (s.proposals.get 7 0).toOption.isSome && (keptVote s 7 0 .prevote [9]).isNone && (keptVote s 13 0 .precommit [3]).isNone
      | none => false) = true := by decide +kernel
    split at hd
    · rename_i s hs
      simp only [Bool.and_eq_true, Option.isSome_iff_exists, Option.isNone_iff_eq_none] at hd
      obtain ⟨⟨⟨⟨⟨h1, h2⟩, h3⟩, h4⟩, h5⟩, h6⟩ := hd
      refine ⟨s, hs, h1, h2, h3, ?_, ?_, ?_⟩
      · obtain ⟨sp, h4⟩ := h4
        refine ⟨sp, ?_⟩
        show s.proposals.get 7 0 = .ok sp
        cases hg : s.proposals.get 7 0 with
        | ok a => rw [hg] at h4; simp only [Except.toOption, Option.some.injEq] at h4; rw [h4]
        | error x => rw [hg] at h4; cases h4
      · rintro ⟨sv, h⟩
        rw [show keptVote s 7 0 .prevote [9] = some sv from h] at h5; cases h5
      · rintro ⟨sv, h⟩
        rw [show keptVote s 13 0 .precommit [3] = some sv from h] at h6; cases h6
    · cases hd

/-! ## What is not bounded -/

open StDemo in
/-- The full claim is false (1): the leader of a round can make a node keep as many blocks as it likes, in one round. The second and
later proposals are refused, but their blocks are kept. All these proposals carry valid signatures. -/
theorem C66_blocks_unbounded (n : Nat) : ∃ (l : List (SignedProposal C)) (s : State C), l.length = n ∧
    (l.map fun sp => sp.proposal.blockHash).Nodup ∧ (∀ sp ∈ l, verifyTask (crypto [1]) (.signedProposal sp) st0.authority = true) ∧
    st0.after (l.map fun sp => (env, .verified (.signedProposal sp))) = some s ∧ s.height = st0.height ∧ s.round = st0.round ∧
    ∀ sp ∈ l, HoldsBlock s sp.proposal.blockHash := by
  let p : Nat → SignedProposal C := fun k => prop 2 7 0 (List.replicate k 6) (List.replicate k 5)
  obtain ⟨s, h1, h2, h3, _⟩ := Mem.flood (e := env) (fun sp => .signedProposal sp) (Mem.Here 7 0 (Authority.update nodes))
    (fun s sp => HoldsBlock s sp.proposal.blockHash) (fun _ _ => True) _
    (fun s sp hs hp => Mem.block_step (by decide) (by decide) s sp hs hp) ((List.range n).map p) st0 ⟨rfl, rfl, rfl, by decide⟩ (by
      intro sp hsp
      obtain ⟨k, _, rfl⟩ := List.mem_map.1 hsp
      exact ⟨rfl, rfl, show (Authority.update nodes).contains [2] = true by decide +kernel,
        show Authority.getProposer .rotation (Authority.update nodes) 7 0 = .ok [2] by decide +kernel⟩) (by simp [List.pairwise_iff_forall_sublist])
  refine ⟨(List.range n).map p, s, by simp, ?_, ?_, h1, h2.height, h2.round, h3⟩
  · rw [List.map_map]
    refine List.Nodup.map ?_ List.nodup_range
    intro a b hab
    have := congrArg List.length hab
    simpa [p, prop] using this
  · intro sp hsp
    obtain ⟨k, _, rfl⟩ := List.mem_map.1 hsp
    simp [verifyTask, p, prop, encProposal, ContentCodec.encode, crypto]

open StDemo in
/-- The full claim is false (2): one validator can make a node keep as many certificates as it likes, for rounds that are
arbitrarily far ahead. Each certificate is signed by this one validator only (the weight is not checked, see C19). -/
theorem C66_certificates_unbounded (n : Nat) : ∃ (l : List AggregatedVote) (s : State C), l.length = n ∧
    l.Pairwise (fun x y => ¬ SameSlot x y) ∧ (∀ qc ∈ l, verifyTask (crypto [1]) (.aggregatedVote qc : OverlordMsg C) st0.authority = true) ∧
    st0.after (l.map fun qc => (env, .verified (.aggregatedVote qc))) = some s ∧ s.height = st0.height ∧ s.round = st0.round ∧
    ∀ qc ∈ l, HoldsCertificate s qc := by
  let p : Nat → AggregatedVote := fun k => cert [4] 7 k .prevote []
  have hpw : ((List.range n).map p).Pairwise (fun x y => ¬ SameSlot x y) := by
    rw [List.pairwise_map]
    exact List.Pairwise.imp (fun {a b} (h : a < b) (hs : SameSlot (p a) (p b)) => by have : a = b := hs.2.1; omega) List.pairwise_lt_range
  obtain ⟨s, h1, h2, h3, _⟩ := Mem.flood (e := env) (fun qc => .aggregatedVote qc) (Mem.Here 7 0 (Authority.update nodes))
    (fun s qc => HoldsCertificate s qc) (fun x y => ¬ SameSlot x y) _
    (fun s qc hs hp => Mem.cert_step s qc hs hp) ((List.range n).map p) st0 ⟨rfl, rfl, rfl, by decide⟩ (by
      intro sp hsp
      obtain ⟨k, _, rfl⟩ := List.mem_map.1 hsp
      exact ⟨rfl, Nat.zero_le _⟩) hpw
  refine ⟨(List.range n).map p, s, by simp, hpw, ?_, h1, h2.height, h2.round, h3⟩
  intro sp hsp
  obtain ⟨k, _, rfl⟩ := List.mem_map.1 hsp
  have hv : qcVoters ((Authority.update nodes).bitmapOf [[4]]) st0.authority = .ok [[4]] := by decide +kernel
  show verifyQc (crypto [1]) (cert [4] 7 k .prevote []) st0.authority = true
  unfold verifyQc
  have : (cert [4] 7 k .prevote []).signature.addressBitmap = (Authority.update nodes).bitmapOf [[4]] := rfl
  rw [this, hv]
  simp [crypto, cert, AggregatedVote.toVote]

open StDemo in
/-- The full claim is false (3): anybody can make a node keep as many chokes as he likes: whether the sender of a choke is a validator is not checked. -/
theorem C66_chokes_unbounded (n : Nat) : ∃ (l : List SignedChoke) (s : State C), l.length = n ∧
    (l.map SignedChoke.address).Nodup ∧ (∀ sc ∈ l, sc.address ∉ nodes.map Node.address ∧
      verifyTask (crypto [1]) (.signedChoke sc : OverlordMsg C) st0.authority = true) ∧
    st0.after (l.map fun sc => (env, .verified (.signedChoke sc))) = some s ∧ s.height = st0.height ∧ s.round = st0.round ∧
    ∀ sc ∈ l, HoldsChoke s sc := by
  let p : Nat → SignedChoke := fun k => ⟨List.replicate (k + 2) 9 ++ encHashChoke ⟨7, 0⟩, ⟨7, 0, .precommitQC mockInitQc⟩, List.replicate (k + 2) 9⟩
  have hlt : ∀ a b, (p a).address = (p b).address → a = b := by
    intro a b hab
    have := congrArg List.length hab
    simpa [p] using this
  have hpw : ((List.range n).map p).Pairwise (fun x y => x.address ≠ y.address) := by
    rw [List.pairwise_map]
    exact List.Pairwise.imp (fun {a b} (h : a < b) hs => by have := hlt a b hs; omega) List.pairwise_lt_range
  obtain ⟨s, h1, h2, h3, _⟩ := Mem.flood (e := env) (fun sc => .signedChoke sc) (Mem.Here 7 0 (Authority.update nodes))
    (fun s sc => HoldsChoke s sc) (fun x y => x.address ≠ y.address) _
    (fun s sc hs hp => Mem.choke_step s sc hs hp) ((List.range n).map p) st0 ⟨rfl, rfl, rfl, by decide⟩ (by
      intro sp hsp
      obtain ⟨k, _, rfl⟩ := List.mem_map.1 hsp
      exact ⟨rfl, rfl⟩) hpw
  refine ⟨(List.range n).map p, s, by simp, ?_, ?_, h1, h2.height, h2.round, h3⟩
  · rw [List.map_map]
    exact List.Nodup.map (fun a b h => hlt a b h) List.nodup_range
  · intro sc hsc
    obtain ⟨k, _, rfl⟩ := List.mem_map.1 hsc
    refine ⟨?_, by simp [verifyTask, p, crypto, Choke.toHash]⟩
    simp [p, nodes, List.replicate_succ]

/-- The full claim is false (4): the result of a block check is kept until the node stops, through all heights. -/
theorem C66_checks_kept (s s' : State T) (ins : List (Env T × Input T)) (hash : Hash) (h : HoldsCheck s hash)
    (hs : s.after ins = some s') : HoldsCheck s' hash :=
  after_inv (P := fun _ s => HoldsCheck s hash) h (fun _ s e i ih => arm_state_inv (P := fun s => HoldsCheck s hash) ih fun _ _ _ h hm => Mem.checks_stay hm h) hs

open StDemo in
/-- A block check is remembered at height 7, and still at height 9. -/
example : ∃ s, st0.after [(env, .resp { height := 7, round := 0, blockHash := [5], isPass := true }),
    (env, .verified (.richStatus { height := 9, interval := none, timerConfig := none, authorityList := nodes }))] = some s ∧ s.height = 9 ∧ HoldsCheck s [5] := by
  refine ⟨_, rfl, by decide +kernel, true, by decide +kernel⟩

end Overlord
