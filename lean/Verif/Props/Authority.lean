import Verif.Proofs.Leader

/-!
# Properties of authority lists, bitmaps and leaders: C08 – C11, C15 – C18
-/

set_option linter.unusedSimpArgs false

namespace Overlord
open Spec

namespace DemoAuth
/-- Four validators given in a mixed order, weights 1, 2, 3, 4. -/
def nodes : List Node :=
  [⟨[3], 1, 3⟩, ⟨[1], 1, 1⟩, ⟨[4], 1, 4⟩, ⟨[2], 1, 2⟩]
theorem nodes_distinct : Distinct nodes := by unfold Distinct; decide
theorem nodes_sized : Sized nodes := by unfold Sized; decide
end DemoAuth

/-! ## C08 -/

/-- **C08.** For every authority list with distinct addresses and every bitmap (any length),
`is_above_threshold` says yes exactly when three times the weight of the validators the bitmap
selects exceeds twice the total weight; it never fails. -/
theorem C08_threshold_is_two_thirds (l : List Node) (h : Distinct l) (hz : Sized l) (bm : Bytes) :
    (Authority.update l).isAboveThreshold bm =
      .ok (decide (3 * weight l (selected l bm) > 2 * total l)) :=
  isAboveThreshold_eq l h hz bm

-- bits for validators 2, 3, 4 (weights 2 + 3 + 4 of 10) are above, for 1, 2, 3 are not,
-- for 3 and 4 (7 of 10) are: one validator more weight than two thirds decides
example : (Authority.update DemoAuth.nodes).isAboveThreshold [0x70] = .ok true := by decide
example : (Authority.update DemoAuth.nodes).isAboveThreshold [0xe0] = .ok false := by decide
example : (Authority.update DemoAuth.nodes).isAboveThreshold [0x30, 0xff] = .ok true := by decide
example : (Authority.update [⟨[1], 1, 1⟩, ⟨[2], 1, 1⟩, ⟨[3], 1, 1⟩]).isAboveThreshold [0xc0] = .ok false := by
  decide

/-! ## C09 -/

/-- **C09, sets.** Two sets of validators each above two thirds share more than one third of the
total weight. -/
theorem C09_quorums_intersect (l : List Node) (p q : Address → Bool)
    (hp : Quorum l p) (hq : Quorum l q) : 3 * weight l (fun a => p a && q a) > total l := by
  have := weight_inter l p q
  unfold Quorum at *
  omega

/-- **C09, honest validator.** If the Byzantine validators hold at most one third of the weight,
two quorums share a validator that is not Byzantine. -/
theorem C09_quorums_share_honest (l : List Node) (p q byz : Address → Bool)
    (hp : Quorum l p) (hq : Quorum l q) (hb : 3 * weight l byz ≤ total l) :
    ∃ n ∈ l, p n.address = true ∧ q n.address = true ∧ byz n.address = false := by
  have h1 := C09_quorums_intersect l p q hp hq
  have h2 := weight_split l (fun a => p a && q a) byz
  have h3 := weight_mono l (fun a => (p a && q a) && byz a) byz (by
    intro n _ h; simp only [Bool.and_eq_true] at h; exact h.2)
  obtain ⟨n, hn, h⟩ := exists_of_weight_pos l (fun a => (p a && q a) && !byz a) (by omega)
  simp only [Bool.and_eq_true, Bool.not_eq_true'] at h
  exact ⟨n, hn, h.1.1, h.1.2, h.2⟩

/-- **C09, certificates.** Two bitmaps that `is_above_threshold` accepts for the same authority list
both name a validator that is not Byzantine. -/
theorem C09_certificates_share_honest (l : List Node) (h : Distinct l) (hz : Sized l)
    (b1 b2 : Bytes) (byz : Address → Bool)
    (h1 : (Authority.update l).isAboveThreshold b1 = .ok true)
    (h2 : (Authority.update l).isAboveThreshold b2 = .ok true)
    (hb : 3 * weight l byz ≤ total l) :
    ∃ a v1 v2, (Authority.update l).getVoters b1 = .ok v1 ∧ (Authority.update l).getVoters b2 = .ok v2 ∧
      a ∈ v1 ∧ a ∈ v2 ∧ byz a = false := by
  rw [C08_threshold_is_two_thirds l h hz] at h1 h2
  simp only [Except.ok.injEq, decide_eq_true_eq] at h1 h2
  obtain ⟨n, hn, hp, hq, hnb⟩ := C09_quorums_share_honest l _ _ byz h1 h2 hb
  refine ⟨n.address, _, _, getVoters_eq l h b1, getVoters_eq l h b2, ?_, ?_, hnb⟩ <;>
    refine List.mem_map.2 ⟨n, List.mem_filter.2 ⟨(sortNodes_perm l).symm.subset hn, ?_⟩, rfl⟩
  · exact hp
  · exact hq

-- weight 3 of 10 may be Byzantine; the bitmaps for {2,3,4} and {1,3,4} share validator 4
example : 3 * weight DemoAuth.nodes (fun a => a == [3]) ≤ total DemoAuth.nodes := by decide
example : (Authority.update DemoAuth.nodes).isAboveThreshold [0xb0] = .ok true := by decide

/-! ## C10 -/

/-- **C10.** Let `votes` be the votes put into a certificate: distinct voters, all in the authority
list. The bitmap the relayer builds decodes – through `extract_voters` on the same validators in any
order and through `get_voters` of any node with that list – to exactly the voters, in the order in
which the signatures were aggregated (`votes.sort()`), for any number of validators. -/
theorem C10_bitmap_names_voters (l l' : List Node) (h : Distinct l) (hl : l'.Perm l)
    (votes : List SignedVote) (hv : (votes.map SignedVote.voter).Nodup)
    (hm : ∀ v ∈ votes, v.voter ∈ l.map Node.address) :
    let bm := (Authority.update l).bitmapOf ((sortVotes votes).map SignedVote.voter)
    extractVoters l' bm = .ok ((sortVotes votes).map SignedVote.voter) ∧
    (Authority.update l').getVoters bm = .ok ((sortVotes votes).map SignedVote.voter) := by
  intro bm
  have h' : Distinct l' := distinct_perm h hl
  have hs : sortNodes l' = sortNodes l := sortNodes_eq_of_perm h hl
  rw [extractVoters_eq l' h', getVoters_eq l' h', hs]
  have key : ((sortNodes l).filter (fun n => selected l' bm n.address)).map Node.address =
      (sortVotes votes).map SignedVote.voter := by
    have hsel : ∀ n ∈ sortNodes l, selected l' bm n.address =
        decide (n.address ∈ votes.map SignedVote.voter) := by
      intro n hn
      obtain ⟨i, hi, rfl⟩ := List.mem_iff_getElem.1 hn
      rw [selected, rank_perm (hl.trans (sortNodes_perm l).symm),
        rank_sorted _ (sortNodes_pairwise l) (distinct_perm h (sortNodes_perm l)) i hi,
        ← bitsOfBytes_bitAt]
      simp only [bm, Authority.bitmapOf]
      rw [bits_roundtrip, List.getD_eq_getElem?_getD, update_address]
      simp only [List.getElem?_map, List.getElem?_eq_getElem hi, Option.map_some, Option.getD_some]
      congr 1
      exact propext ((sortVotes_perm votes).map _).mem_iff
    rw [List.filter_congr hsel]
    refine List.Perm.eq_of_pairwise (le := fun a b => bytesLe a b = true) ?_ ?_ ?_ ?_
    · intro a b _ _ h1 h2; exact bytesLe_antisymm h1 h2
    · exact List.pairwise_map.2 (List.Pairwise.filter _ (sortNodes_pairwise l))
    · exact List.pairwise_map.2 (sortVotes_pairwise votes)
    · refine (List.perm_ext_iff_of_nodup ?_ ?_).2 ?_
      · exact (List.Sublist.map _ List.filter_sublist).nodup (distinct_perm h (sortNodes_perm l))
      · exact ((sortVotes_perm votes).map _).nodup_iff.2 hv
      · intro a
        rw [((sortVotes_perm votes).map SignedVote.voter).mem_iff]
        simp only [List.mem_map, List.mem_filter, decide_eq_true_eq]
        constructor
        · rintro ⟨n, ⟨_, v, hv1, hv2⟩, rfl⟩
          exact ⟨v, hv1, hv2⟩
        · rintro ⟨v, hv1, rfl⟩
          obtain ⟨n, hn, he⟩ := List.mem_map.1 (hm v hv1)
          exact ⟨n, ⟨(sortNodes_perm l).symm.subset hn, v, hv1, he.symm⟩, he⟩
  rw [key]
  exact ⟨rfl, rfl⟩

namespace DemoAuth
def sv (a : UInt8) : SignedVote := ⟨[a, a], ⟨1, 0, .prevote, [9]⟩, [a]⟩
/-- nine validators: the bitmap needs two bytes -/
def nine : List Node := [9, 2, 5, 1, 8, 3, 7, 4, 6].map (fun a => ⟨[a], 1, 1⟩)
end DemoAuth

example : (Authority.update DemoAuth.nine).bitmapOf ([DemoAuth.sv 9, DemoAuth.sv 1, DemoAuth.sv 3].map SignedVote.voter)
    = [0xa0, 0x80] := by decide
example : extractVoters DemoAuth.nine.reverse [0xa0, 0x80] = .ok [[1], [3], [9]] := by decide
example : Distinct DemoAuth.nine ∧ ([DemoAuth.sv 9, DemoAuth.sv 1, DemoAuth.sv 3].map SignedVote.voter).Nodup ∧
    ∀ v ∈ [DemoAuth.sv 9, DemoAuth.sv 1, DemoAuth.sv 3], v.voter ∈ DemoAuth.nine.map Node.address := by
  unfold Distinct; decide

/-! ## C11 -/

/-- **C11.** Two nodes given the same validators in different orders agree on every vote weight, on
the threshold decision and the meaning of every bitmap, on the bitmap of every voter set, on the
total weight, and on the leader of every height and round in both leader modes. -/
theorem C11_order_irrelevant (l l' : List Node) (h : Distinct l) (p : l'.Perm l) :
    (∀ a, (Authority.update l').getVoteWeight a = (Authority.update l).getVoteWeight a) ∧
    (∀ bm, (Authority.update l').isAboveThreshold bm = (Authority.update l).isAboveThreshold bm) ∧
    (∀ bm, (Authority.update l').getVoters bm = (Authority.update l).getVoters bm) ∧
    (∀ bm, extractVoters l' bm = extractVoters l bm) ∧
    (∀ vs, (Authority.update l').bitmapOf vs = (Authority.update l).bitmapOf vs) ∧
    (Authority.update l').voteWeightSum = (Authority.update l).voteWeightSum ∧
    (∀ a, (Authority.update l').contains a = (Authority.update l).contains a) ∧
    (∀ mode height round, (Authority.update l').getProposer mode height round =
      (Authority.update l).getProposer mode height round) ∧
    (∀ mode height round, getLeader mode height round l' = getLeader mode height round l) := by
  have hs : sortNodes l' = sortNodes l := sortNodes_eq_of_perm h p
  have hu : Authority.update l' = Authority.update l := by simp [Authority.update, hs]
  rw [hu]
  refine ⟨fun _ => rfl, fun _ => rfl, fun _ => rfl, fun _ => ?_, fun _ => rfl, rfl, fun _ => rfl,
    fun _ _ _ => rfl, fun _ _ _ => ?_⟩
  · simp [extractVoters, hs]
  · simp [getLeader, hs]

/-- **C11, content.** Each validator has the weight it was given, everybody else has none. -/
theorem C11_weights_are_as_given (l : List Node) (h : Distinct l) :
    (∀ n ∈ l, (Authority.update l).getVoteWeight n.address = .ok n.voteWeight) ∧
    (∀ a, a ∉ l.map Node.address → (Authority.update l).getVoteWeight a = .error .invalidAddress) := by
  constructor
  · intro n hn; simp [Authority.getVoteWeight, update_weight l h n hn]
  · intro a ha; simp [Authority.getVoteWeight, update_weight_none l a ha]

example : Distinct DemoAuth.nodes ∧ DemoAuth.nodes.reverse.Perm DemoAuth.nodes ∧
    DemoAuth.nodes.reverse ≠ DemoAuth.nodes :=
  ⟨DemoAuth.nodes_distinct, List.reverse_perm _, by decide⟩
-- with two validators of one address the order does matter: distinctness is needed
example : (Authority.update [⟨[1], 1, 1⟩, ⟨[1], 1, 5⟩]).getVoteWeight [1] ≠
    (Authority.update [⟨[1], 1, 5⟩, ⟨[1], 1, 1⟩]).getVoteWeight [1] := by decide

/-! ## C15 -/

/-- **C15, default mode.** `get_leader` and the node's own leader computation return the same address
for every height, round and list; on the inputs where both panic (empty list, or a list of a length
divisible by 2^32) both panic. -/
theorem C15_get_leader_is_the_nodes_rotation (h r : Nat) (l : List Node) :
    getLeader .rotation h r l = (Authority.update l).getProposer .rotation h r := by
  have hl : (sortNodes l).length = l.length := (sortNodes_perm l).length_eq
  simp only [getLeader, Authority.getProposer, update_address, List.length_map, hl]
  by_cases hz : l.length % U32 = 0
  · simp [rotationLeaderIndex, hz, bind, Except.bind]
  · simp only [rotationLeaderIndex, if_neg hz, bind, Except.bind]
    have hi : (h * leaderStride (l.length % U32) + r) % U64 % (l.length % U32) < (sortNodes l).length := by
      rw [hl]
      exact Nat.lt_of_lt_of_le (Nat.mod_lt _ (Nat.pos_of_ne_zero hz)) (Nat.mod_le _ _)
    simp [List.getElem?_map, List.getElem?_eq_getElem hi]

/-- **C15, random mode.** The same in `random_leader` mode when the propose weights sum to less than
2^32. What is missing: `get_leader` sums in `u32`, the node in `u64`. -/
theorem C15_get_leader_is_the_nodes_random_partial (rng : Nat → List Nat) (h r : Nat) (l : List Node)
    (hsum : totalPropose l < 2 ^ 32) :
    getLeader (.random rng) h r l = (Authority.update l).getProposer (.random rng) h r := by
  have hsum' : ((sortNodes l).map Node.proposeWeight).sum = totalPropose l :=
    sum_perm ((sortNodes_perm l).map _)
  have hf := foldl_mod_sum (sortNodes l) U32 0 (by rw [hsum']; unfold U32; omega)
  have hu : (Authority.update l).proposeWeightSum = totalPropose l := by
    rw [update_proposeWeightSum, Nat.mod_eq_of_lt]; unfold U64; omega
  simp only [getLeader, Authority.getProposer, update_address, update_proposeWeights, hf, hsum',
    Nat.zero_add, hu]
  unfold getRandomProposerIndex
  by_cases h0 : totalPropose l = 0
  · simp [h0, bind, Except.bind]
  · simp only [if_neg h0]
    have hpos : 0 < totalPropose l := Nat.pos_of_ne_zero h0
    have htmp : 0 < U64MAX / totalPropose l := Nat.div_pos (by unfold U64MAX; omega) hpos
    have hle : totalPropose l * (U64MAX / totalPropose l) ≤ U64MAX := Nat.mul_div_le _ _
    have hlt : totalPropose l * (U64MAX / totalPropose l) < U64 := by unfold U64MAX U64 at *; omega
    rw [Nat.mod_eq_of_lt hlt]
    cases hd : firstAccepted (totalPropose l * (U64MAX / totalPropose l)) (rng ((h + r) % U64)) with
    | none => simp [bind, Except.bind]
    | some d =>
      have hdb : d < totalPropose l * (U64MAX / totalPropose l) := by
        generalize rng ((h + r) % U64) = ds at hd
        induction ds with
        | nil => simp [firstAccepted] at hd
        | cons x ds ih =>
          simp only [firstAccepted] at hd
          split at hd
          · exact ih hd
          · simp at hd; omega
      have := (pickIndex_spec (U64MAX / totalPropose l) d ((sortNodes l).map Node.proposeWeight) 0 0
        (by rw [hsum', Nat.zero_add]; exact hlt) htmp (by simp)).1 (by
          rw [hsum', Nat.zero_add]; exact hdb)
      have hi : pickIndex (U64MAX / totalPropose l) d 0 0 ((sortNodes l).map Node.proposeWeight) <
          (sortNodes l).length := by simpa using this.2
      simp [bind, Except.bind, List.getElem?_map, List.getElem?_eq_getElem hi]

/-- **C15 is false in random mode.** Three validators with propose weights 2^31, 2^31 and 1: for a
generator whose digit is 2^63 the node's leader is the second validator, `get_leader` says the first. -/
theorem C15_false_in_random_mode :
    ∃ (rng : Nat → List Nat) (l : List Node), Distinct l ∧ Sized l ∧
      getLeader (.random rng) 1 0 l = .ok [1] ∧
      (Authority.update l).getProposer (.random rng) 1 0 = .ok [2] :=
  ⟨fun _ => [2 ^ 63], [⟨[1], 2 ^ 31, 1⟩, ⟨[2], 2 ^ 31, 1⟩, ⟨[3], 1, 1⟩],
    by unfold Distinct; decide, by unfold Sized; decide, by decide, by decide⟩

/-- **C15 is false in random mode (panic).** With weights 2^31 and 2^31 `get_leader` divides by zero
although the node has a leader. -/
theorem C15_false_in_random_mode_panic :
    ∃ (rng : Nat → List Nat) (l : List Node), Distinct l ∧ Sized l ∧
      getLeader (.random rng) 1 0 l = .error .panic ∧
      (Authority.update l).getProposer (.random rng) 1 0 = .ok [1] :=
  ⟨fun _ => [5], [⟨[1], 2 ^ 31, 1⟩, ⟨[2], 2 ^ 31, 1⟩],
    by unfold Distinct; decide, by unfold Sized; decide, by decide, by decide⟩

example : getLeader .rotation 7 2 DemoAuth.nodes = .ok [4] := by decide
example : totalPropose DemoAuth.nodes < 2 ^ 32 ∧
    getLeader (.random fun _ => [2 ^ 64 - 1, 2 ^ 63]) 7 2 DemoAuth.nodes = .ok [3] := by decide

/-! ## C16 -/

/-- **C16.** Default mode, distinct addresses: in any `n` consecutive rounds `r, …, r+n-1` of a height
each of the `n` validators leads exactly once. What is missing: heights and rounds for which
`height * n + round` leaves the 64-bit range (there it is false, see below). -/
theorem C16_every_validator_leads_partial (l : List Node) (hd : Distinct l) (hl : l.length < 2 ^ 32)
    (h r : Nat) (ho : h * l.length + r + l.length ≤ 2 ^ 64) (a : Address)
    (ha : a ∈ l.map Node.address) :
    ∃ i, (i < l.length ∧ (Authority.update l).getProposer .rotation h (r + i) = .ok a) ∧
      ∀ j, j < l.length → (Authority.update l).getProposer .rotation h (r + j) = .ok a → j = i := by
  have hn : 0 < l.length := by
    rcases l with _ | ⟨x, l⟩
    · simp at ha
    · simp
  have hs : leaderStride l.length ≤ l.length := by
    rcases leaderStride_spec l.length with ⟨h, _⟩ | ⟨_, h, _⟩ <;> omega
  have hmul : h * leaderStride l.length ≤ h * l.length := Nat.mul_le_mul_left _ hs
  have hp : ∀ i, i < l.length → (Authority.update l).getProposer .rotation h (r + i) =
      match ((sortNodes l).map Node.address)[(h * leaderStride l.length + (r + i)) % l.length]? with
      | some a => .ok a
      | none => .error .other := fun i hi =>
    getProposer_rotation l h (r + i) hn hl (by unfold U64; omega)
  have hnd : ((sortNodes l).map Node.address).Nodup := distinct_perm hd (sortNodes_perm l)
  obtain ⟨k, hk, hka⟩ := List.mem_iff_getElem.1 (((sortNodes_perm l).map Node.address).symm.subset ha)
  have hk' : k < l.length := by simpa [(sortNodes_perm l).length_eq] using hk
  have hkS : ((sortNodes l).map Node.address)[k]? = some a := by rw [List.getElem?_eq_getElem hk, hka]
  obtain ⟨i, hi, he, hu⟩ := residue_unique l.length 1 (h * leaderStride l.length + r)
    (Nat.coprime_one_left _) k hk'
  have e : ∀ i, h * leaderStride l.length + (r + i) = h * leaderStride l.length + r + i * 1 := by
    intro i; omega
  refine ⟨i, ⟨hi, ?_⟩, fun j hj hja => ?_⟩
  · rw [hp i hi, e, he, hkS]
  · rw [hp j hj, e] at hja
    apply hu j hj
    cases hx : ((sortNodes l).map Node.address)[(h * leaderStride l.length + r + j * 1) % l.length]? with
    | none => rw [hx] at hja; simp at hja
    | some b =>
      rw [hx] at hja
      simp only [Except.ok.injEq] at hja
      subst hja
      exact nodup_getElem_inj hnd hx hkS

/-- **C16 is false where `height * stride + round` wraps**: rounds 2^64-3 and 2^64-2 of height 1 have
the same leader among three validators, and the third validator never leads in three rounds. -/
theorem C16_false_at_wrap :
    let l : List Node := [⟨[1], 1, 1⟩, ⟨[2], 1, 1⟩, ⟨[3], 1, 1⟩]
    Distinct l ∧
    (Authority.update l).getProposer .rotation 1 (2 ^ 64 - 3) = .ok [1] ∧
    (Authority.update l).getProposer .rotation 1 (2 ^ 64 - 2) = .ok [1] ∧
    (Authority.update l).getProposer .rotation 1 (2 ^ 64 - 1) = .ok [2] := by
  refine ⟨by unfold Distinct; decide, by decide, by decide, by decide⟩

example : (List.range 4).map (fun i => (Authority.update DemoAuth.nodes).getProposer .rotation 5 (3 + i)) =
    [.ok [3], .ok [4], .ok [1], .ok [2]] := by decide

/-! ## C17 -/

/-- **C17.** Default mode, distinct addresses: over any `n` consecutive heights each of the `n`
validators leads round `r` (in particular round 0) exactly once. Rests on Bertrand's postulate: the
largest prime below `n` is coprime to `n`. What is missing: the 64-bit wrap as for C16. -/
theorem C17_leadership_rotates_over_heights_partial (l : List Node) (hd : Distinct l)
    (hl : l.length < 2 ^ 32) (h r : Nat) (ho : (h + l.length) * l.length + r < 2 ^ 64) (a : Address)
    (ha : a ∈ l.map Node.address) :
    ∃ i, (i < l.length ∧ (Authority.update l).getProposer .rotation (h + i) r = .ok a) ∧
      ∀ j, j < l.length → (Authority.update l).getProposer .rotation (h + j) r = .ok a → j = i := by
  have hn : 0 < l.length := by
    rcases l with _ | ⟨x, l⟩
    · simp at ha
    · simp
  have hs : leaderStride l.length ≤ l.length := by
    rcases leaderStride_spec l.length with ⟨h, _⟩ | ⟨_, h, _⟩ <;> omega
  have hp : ∀ i, i < l.length → (Authority.update l).getProposer .rotation (h + i) r =
      match ((sortNodes l).map Node.address)[((h + i) * leaderStride l.length + r) % l.length]? with
      | some a => .ok a
      | none => .error .other := fun i hi => by
    have hmul : (h + i) * leaderStride l.length ≤ (h + l.length) * l.length :=
      Nat.mul_le_mul (by omega) hs
    exact getProposer_rotation l (h + i) r hn hl (by unfold U64; omega)
  have hnd : ((sortNodes l).map Node.address).Nodup := distinct_perm hd (sortNodes_perm l)
  obtain ⟨k, hk, hka⟩ := List.mem_iff_getElem.1 (((sortNodes_perm l).map Node.address).symm.subset ha)
  have hk' : k < l.length := by simpa [(sortNodes_perm l).length_eq] using hk
  have hkS : ((sortNodes l).map Node.address)[k]? = some a := by rw [List.getElem?_eq_getElem hk, hka]
  obtain ⟨i, hi, he, hu⟩ := residue_unique l.length (leaderStride l.length)
    (h * leaderStride l.length + r) (leaderStride_coprime l.length hn) k hk'
  have e : ∀ i, (h + i) * leaderStride l.length + r =
      h * leaderStride l.length + r + i * leaderStride l.length := by
    intro i; rw [Nat.add_mul]; omega
  refine ⟨i, ⟨hi, ?_⟩, fun j hj hja => ?_⟩
  · rw [hp i hi, e, he, hkS]
  · rw [hp j hj, e] at hja
    apply hu j hj
    cases hx : ((sortNodes l).map Node.address)[(h * leaderStride l.length + r +
        j * leaderStride l.length) % l.length]? with
    | none => rw [hx] at hja; simp at hja
    | some b =>
      rw [hx] at hja
      simp only [Except.ok.injEq] at hja
      subst hja
      exact nodup_getElem_inj hnd hx hkS

example : (List.range 4).map (fun i => (Authority.update DemoAuth.nodes).getProposer .rotation (5 + i) 0) =
    [.ok [4], .ok [3], .ok [2], .ok [1]] := by decide
example : (List.range 9).map (fun i => (Authority.update DemoAuth.nine).getProposer .rotation (20 + i) 0) =
    [.ok [6], .ok [4], .ok [2], .ok [9], .ok [7], .ok [5], .ok [3], .ok [1], .ok [8]] := by decide

/-! ## C18 -/

/-- The digits the generator loop accepts and for which the weighted choice returns index `i`. -/
def selecting (weights : List Nat) (sum i : Nat) : Finset Nat :=
  (Finset.range (2 ^ 64)).filter (fun d => getRandomProposerIndex [d] weights sum = .ok i)

/-- **C18.** For every weight vector with a positive sum below 2^64 there is a quantum `t > 0` such
that exactly `w_i * t` of the 2^64 digits select validator `i` – so the choice is exactly proportional
and a validator of weight zero is never chosen – every result is an index of the list, and the other
digits (fewer than the weight sum plus one) are redrawn. The loop ends at the first digit below `sum * t`. -/
theorem C18_random_leader_proportional (weights : List Nat) (hpos : 0 < weights.sum)
    (hlt : weights.sum < 2 ^ 64) :
    ∃ t, 0 < t ∧ weights.sum * t ≤ 2 ^ 64 - 1 ∧ 2 ^ 64 - 1 < weights.sum * t + weights.sum ∧
      (∀ digits i, getRandomProposerIndex digits weights weights.sum = .ok i → i < weights.length) ∧
      (∀ digits, (∃ d ∈ digits, d < weights.sum * t) →
        ∃ i, getRandomProposerIndex digits weights weights.sum = .ok i) ∧
      (∀ i, (h : i < weights.length) → (selecting weights weights.sum i).card = weights[i] * t) := by
  have htmp : 0 < U64MAX / weights.sum := Nat.div_pos (by unfold U64MAX; omega) hpos
  have hle : weights.sum * (U64MAX / weights.sum) ≤ U64MAX := Nat.mul_div_le _ _
  have hlt' : weights.sum * (U64MAX / weights.sum) < U64 := by unfold U64MAX U64 at *; omega
  have hdm := Nat.div_add_mod U64MAX weights.sum
  have hml := Nat.mod_lt U64MAX hpos
  have hne : weights.sum ≠ 0 := by omega
  have hfa : ∀ ds d, firstAccepted (weights.sum * (U64MAX / weights.sum)) ds = some d →
      d < weights.sum * (U64MAX / weights.sum) := by
    intro ds d hd
    induction ds with
    | nil => simp [firstAccepted] at hd
    | cons x ds ih =>
      simp only [firstAccepted] at hd
      split at hd
      · exact ih hd
      · simp at hd; omega
  have hsp : ∀ d, d < weights.sum * (U64MAX / weights.sum) →
      (0 ≤ pickIndex (U64MAX / weights.sum) d 0 0 weights ∧
        pickIndex (U64MAX / weights.sum) d 0 0 weights < 0 + weights.length) ∧
      ∀ k, k < weights.length → (pickIndex (U64MAX / weights.sum) d 0 0 weights = 0 + k ↔
        (0 + (weights.take k).sum) * (U64MAX / weights.sum) ≤ d ∧
          d < (0 + (weights.take (k + 1)).sum) * (U64MAX / weights.sum)) := by
    intro d hd
    have := pickIndex_spec (U64MAX / weights.sum) d weights 0 0
      (by rw [Nat.zero_add]; exact hlt') htmp (by simp)
    rw [Nat.zero_add weights.sum] at this
    exact ⟨this.1 hd, fun k hk => this.2 k hk hd⟩
  refine ⟨U64MAX / weights.sum, htmp, hle, ?_, ?_, ?_, ?_⟩
  · have hU : U64MAX = 2 ^ 64 - 1 := rfl
    rw [← hU]; omega
  · intro digits i hi
    simp only [getRandomProposerIndex, if_neg hne, Nat.mod_eq_of_lt hlt'] at hi
    cases hf : firstAccepted (weights.sum * (U64MAX / weights.sum)) digits with
    | none => rw [hf] at hi; simp at hi
    | some d =>
      rw [hf] at hi
      simp only [Except.ok.injEq] at hi
      have := (hsp d (hfa _ _ hf)).1
      omega
  · rintro digits ⟨d, hd, hdl⟩
    simp only [getRandomProposerIndex, if_neg hne, Nat.mod_eq_of_lt hlt']
    cases hf : firstAccepted (weights.sum * (U64MAX / weights.sum)) digits with
    | some d => exact ⟨_, rfl⟩
    | none =>
      exfalso
      induction digits with
      | nil => simp at hd
      | cons x ds ih =>
        simp only [firstAccepted] at hf
        split at hf
        · rcases List.mem_cons.1 hd with rfl | hd
          · omega
          · exact ih hd hf
        · simp at hf
  · intro i hi
    have hset : selecting weights weights.sum i =
        Finset.Ico ((weights.take i).sum * (U64MAX / weights.sum))
          ((weights.take (i + 1)).sum * (U64MAX / weights.sum)) := by
      ext d
      simp only [selecting, Finset.mem_filter, Finset.mem_range, Finset.mem_Ico,
        getRandomProposerIndex, if_neg hne, Nat.mod_eq_of_lt hlt', firstAccepted]
      have hsl : (weights.take (i + 1)).sum ≤ weights.sum := by
        conv_rhs => rw [← List.take_append_drop (i + 1) weights]
        rw [List.sum_append]; omega
      have hmul : (weights.take (i + 1)).sum * (U64MAX / weights.sum) ≤
          weights.sum * (U64MAX / weights.sum) := Nat.mul_le_mul_right _ hsl
      by_cases hd : d ≥ weights.sum * (U64MAX / weights.sum)
      · simp only [if_pos hd]
        constructor
        · rintro ⟨_, h⟩; simp at h
        · rintro ⟨_, h⟩; omega
      · have hd' : d < weights.sum * (U64MAX / weights.sum) := by omega
        have hk := (hsp d hd').2 i hi
        simp only [Nat.zero_add] at hk
        simp only [if_neg hd, Except.ok.injEq]
        rw [hk]
        constructor
        · rintro ⟨_, h⟩; exact h
        · intro h
          refine ⟨?_, h⟩
          have : U64MAX = 2 ^ 64 - 1 := rfl
          omega
    rw [hset, Nat.card_Ico, List.take_add_one, List.getElem?_eq_getElem hi]
    simp only [Option.toList_some, List.sum_append, List.sum_cons, List.sum_nil, Nat.add_zero,
      Nat.add_mul]
    omega

example : (0 : Nat) < [3, 0, 1].sum ∧ [3, 0, 1].sum < 2 ^ 64 := by decide
example : (List.map (fun d => getRandomProposerIndex [2 ^ 64 - 1, d] [3, 0, 1] 4) [0, 2 ^ 62, 2 ^ 63 + 2 ^ 62 - 4, 2 ^ 63 + 2 ^ 62 - 3])
    = [.ok 0, .ok 0, .ok 0, .ok 2] := by decide

end Overlord
