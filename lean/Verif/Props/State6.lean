import Verif.Props.State5
import Verif.Proofs.Chokes
import Verif.Props.Authority

/-!
# C41, C19, C20: chokes, certificates, evidence inside messages
-/

set_option linter.unusedSimpArgs false
set_option linter.unusedVariables false
set_option linter.unusedSectionVars false
set_option linter.unnecessarySeqFocus false

namespace Overlord
open M Spec

variable {T : Type} [ContentCodec T] [DecidableEq T]

/-! ## C41 — two thirds of chokes always unblock a round -/

omit [ContentCodec T] [DecidableEq T] in
/-- What the check of the held chokes does. -/
theorem wp_checkChoke {e : Env T} {s : State T} {l : List (Effect T)} (hok : ChokesOk s.chokes)
    {Q : Unit → World T → Prop} {E : Err → World T → Prop}
    (h0 : (∀ R, ¬ TopChokeRound s R) → Q () ⟨s, l⟩)
    (h1 : ∀ R (scs : List SignedChoke), TopChokeRound s R → scs.Perm (heldChokes s R) →
      e.crypto.aggregate (scs.map SignedChoke.signature) (scs.map SignedChoke.address) = none → E .cryptoErr ⟨s, l⟩)
    (h2 : ∀ R (scs : List SignedChoke) sig, TopChokeRound s R → scs.Perm (heldChokes s R) →
      e.crypto.aggregate (scs.map SignedChoke.signature) (scs.map SignedChoke.address) = some sig →
      Q () ⟨{ s with chokes := s.chokes.setQc R (mkChokeQc s R sig scs) },
        l ++ [.trigger (stTrigger .continueRound [] none (inc64 R) s.height)]⟩) :
    wp (checkChokeAboveThreshold : M T Unit) e ⟨s, l⟩ Q E := by
  unfold checkChokeAboveThreshold
  wps
  split
  · rename_i hm
    exact h0 fun R hR => maxRound_none hm R hR.2.1
  · rename_i R hm
    have hmax := maxRound_some hok hm
    wps [aggregateSignatures]
    refine ⟨fun hlt => h0 fun R' hR' => ?_, fun hge => ?_⟩
    · have := hmax.2 R' hR'.2.1
      have := hR'.1
      omega
    · have htop : TopChokeRound s R := ⟨by omega, hmax.1, hmax.2⟩
      refine ⟨fun scs hsc => ?_, fun hnone => ?_⟩
      · have hp : scs.Perm (heldChokes s R) := by
          unfold ChokeCollector.getChokes at hsc
          unfold heldChokes ChokeCollector.getChokes
          cases hg : s.chokes.chokes.get? R with
          | none => rw [hg] at hsc; cases hsc
          | some m => rw [hg] at hsc; cases hsc; exact e.sh.perm _
        exact ⟨fun sig hsig => h2 R scs sig htop hp hsig, fun hn => h1 R scs htop hp hn⟩
      · exfalso
        unfold ChokeCollector.getChokes at hnone
        have := hmax.1
        unfold ChokeCollector.held ChokeCollector.getChokes at this
        cases hg : s.chokes.chokes.get? R with
        | none => simp [hg] at this
        | some m => rw [hg] at hnone; cases hnone

/-- The orders to continue in another round. -/
def continues (l : List (Effect T)) : List SMRTrigger :=
  (triggers l).filter fun t => decide (t.triggerType = .continueRound)

/-- What C41 demands of the effects of an input and the state after it: with a quorum of held chokes, one order
to continue after the highest such round and a certificate of exactly these chokes; without, no order. -/
def ContinuesRight (e : Env T) (s' : State T) (l : List (Effect T)) : Prop :=
  (∀ R, TopChokeRound s' R → continues l = [stTrigger .continueRound [] none ((R + 1) % 2 ^ 64) s'.height] ∧
    ∃ qc, ∃ scs : List SignedChoke, s'.chokes.getQc R = some qc ∧ scs.Perm (heldChokes s' R) ∧ qc.height = s'.height ∧ qc.round = R ∧
      qc.voters = scs.map SignedChoke.address ∧
      e.crypto.aggregate (scs.map SignedChoke.signature) qc.voters = some qc.signature) ∧
  ((∀ R, ¬ TopChokeRound s' R) → continues l = [])

omit [ContentCodec T] [DecidableEq T] in
theorem wp_checkChoke_right {e : Env T} {s : State T} {l : List (Effect T)} (hok : ChokesOk s.chokes)
    (hl : continues l = []) (hc : ∀ sigs voters, e.crypto.aggregate sigs voters ≠ none) :
    wp (checkChokeAboveThreshold : M T Unit) e ⟨s, l⟩
      (fun _ w => ContinuesRight e w.st w.log ∧ w.st.chokes.chokes = s.chokes.chokes ∧ w.st.height = s.height)
      (fun _ w => False) := by
  refine wp_checkChoke hok (fun hn => ⟨⟨fun R hR => absurd hR (hn R), fun _ => hl⟩, rfl, rfl⟩)
    (fun R scs _ _ hn => hc _ _ hn) fun R scs sig htop hp hsig => ?_
  have same : ∀ R', TopChokeRound ({ s with chokes := s.chokes.setQc R (mkChokeQc s R sig scs) } : State T) R' ↔
      TopChokeRound s R' := fun _ => Iff.rfl
  refine ⟨⟨fun R' hR' => ?_, fun hn => absurd htop (hn R)⟩, rfl, rfl⟩
  have hR' := (same R').1 hR'
  have hRR : R' = R := Nat.le_antisymm (htop.2.2 R' hR'.2.1) (hR'.2.2 R htop.2.1)
  subst hRR
  refine ⟨?_, mkChokeQc s R' sig scs, scs, ?_, hp, rfl, rfl, rfl, hsig⟩
  · unfold continues triggers at hl ⊢
    rw [List.filterMap_append, List.filter_append, hl]
    rfl
  · simp [ChokeCollector.getQc, ChokeCollector.setQc]

/-- A choke of the node's height and round is kept (replacing an earlier one of the same sender), and, the
aggregation of signatures working, the node continues exactly if more than two thirds of the validators' number of
chokes are held, after the highest such round, with a certificate of exactly these chokes. -/
theorem C41_choke_unblocks (addr : Address) (h0 iv : Nat) (l : List Node) (ins : List (Env T × Input T))
    (s : State T) (hs : (State.new addr h0 iv l : State T).after ins = some s) (e : Env T) (sc : SignedChoke)
    (hp : s.consensusPower = true) (hh : sc.choke.height = s.height) (hr : sc.choke.round = s.round)
    (hc : ∀ sigs voters, e.crypto.aggregate sigs voters ≠ none) :
    (∀ R x, x ∈ heldChokes (next e (.verified (.signedChoke sc)) s) R ↔
      (R = s.round ∧ x = sc) ∨ (x ∈ heldChokes s R ∧ ¬ (R = s.round ∧ x.address = sc.address))) ∧
    ContinuesRight e (next e (.verified (.signedChoke sc)) s) (effects e (.verified (.signedChoke sc)) s) := by
  have hok := chokesOk_after hs
  have : wp (runArm (.verified (.signedChoke sc))) e ⟨s, []⟩
      (fun _ w => ContinuesRight e w.st w.log ∧ w.st.chokes.chokes = (s.chokes.insert s.round sc).chokes)
      (fun _ w => ContinuesRight e w.st w.log ∧ w.st.chokes.chokes = (s.chokes.insert s.round sc).chokes) := by
    unfold runArm handleMsg handleSignedChoke
    wps
    refine ⟨fun h1 => by simp [hp] at h1, fun _ => ⟨fun h1 => absurd hh h1, fun _ => ⟨fun h1 => by omega,
      fun _ => ⟨fun h1 => by omega, fun _ => ?_⟩⟩⟩⟩
    rw [hr]
    refine wp_mono (wp_checkChoke_right (hok.insert _ _) rfl hc) (fun _ w h => ⟨h.1, h.2.1⟩) (fun _ _ h => h.elim)
  have := wp_post this
  refine ⟨fun R x => ?_, this.1⟩
  have hheld := held_insert hok s.round sc R x
  unfold heldChokes
  unfold ChokeCollector.held at hheld
  rw [← hheld]
  unfold ChokeCollector.getChokes next
  rw [this.2]

/-- The same when the node sends its own choke. -/
theorem C41_own_choke_unblocks (addr : Address) (h0 iv : Nat) (l : List Node) (ins : List (Env T × Input T))
    (s : State T) (hs : (State.new addr h0 iv l : State T).after ins = some s) (e : Env T) (lr : Option Nat)
    (hc : ∀ sigs voters, e.crypto.aggregate sigs voters ≠ none)
    (hb : ∃ sc, .broadcast (.signedChoke sc) ∈ effects e (.event (.brake s.height s.round lr)) s) :
    ContinuesRight e (next e (.event (.brake s.height s.round lr)) s)
      (effects e (.event (.brake s.height s.round lr)) s) := by
  have hok := chokesOk_after hs
  let P : World T → Prop := fun w => (∃ sc, .broadcast (.signedChoke sc) ∈ w.log) → ContinuesRight e w.st w.log
  have : wp (runArm (.event (.brake s.height s.round lr))) e ⟨s, []⟩ (fun _ w => P w) (fun _ w => P w) := by
    have none : ∀ s : State T, P ⟨s, []⟩ := by rintro s ⟨_, h⟩; simp at h
    unfold runArm handleEvent handleBrake
    wps [broadcast]
    refine ⟨fun _ => none _, fun _ => ⟨fun _ => none _, fun _ => ⟨fun _ => none _, fun _ => ⟨fun h1 => absurd rfl h1,
      fun _ => ⟨fun sig hsig => ?_, fun _ => by simp [none]⟩⟩⟩⟩⟩
    refine wp_saveWalLR (fun _ => by simp [none])
      (fun lock b _ _ _ => by simp [P]) (fun lock b _ _ _ => ?_)
    refine wp_mono (wp_checkChoke_right (hok.insert _ _) ?_ hc) (fun _ w h _ => h.1) (fun _ _ h => h.elim)
    simp [continues, triggers]
  exact (wp_post this) hb

/-- Nothing else makes a running node continue on account of chokes, except (and this is the missing part) a choke
of a later round that carries a choke certificate, which is believed: see the counterexamples. -/
theorem C41_never_below_partial (addr : Address) (h0 iv : Nat) (l : List Node) (ins : List (Env T × Input T))
    (s : State T) (hs : (State.new addr h0 iv l : State T).after ins = some s) (e : Env T) (i : Input T)
    (hi : i ≠ .start) (hc : ∀ sigs voters, e.crypto.aggregate sigs voters ≠ none)
    (hq : ∀ sc ac, i = .verified (.signedChoke sc) → sc.choke.from = .chokeQC ac → sc.choke.round ≤ s.round)
    (ht : continues (effects e i s) ≠ []) :
    ∃ R, TopChokeRound (next e i s) R ∧
      continues (effects e i s) = [stTrigger .continueRound [] none ((R + 1) % 2 ^ 64) s.height] := by
  have hok := chokesOk_after hs
  have key : (continues (effects e i s) ≠ [] → ContinuesRight e (next e i s) (effects e i s) ∧ (next e i s).height = s.height) →
      ∃ R, TopChokeRound (next e i s) R ∧
        continues (effects e i s) = [stTrigger .continueRound [] none ((R + 1) % 2 ^ 64) s.height] := by
    intro hcr
    obtain ⟨hcr, hh⟩ := hcr ht
    by_cases hex : ∃ R, TopChokeRound (next e i s) R
    · obtain ⟨R, hR⟩ := hex
      exact ⟨R, hR, by rw [(hcr.1 R hR).1, hh]⟩
    · exact absurd (hcr.2 fun R hR => hex ⟨R, hR⟩) ht
  let P : World T → Prop := fun w => continues w.log ≠ [] → ContinuesRight e w.st w.log ∧ w.st.height = s.height
  have pnone : ∀ s : State T, P ⟨s, []⟩ := fun s h => absurd rfl h
  have hinput : (∃ sc, i = .verified (.signedChoke sc)) ∨ ∃ h r lr, i = .event (.brake h r lr) := by
    obtain ⟨t, htm⟩ := List.exists_mem_of_ne_nil _ ht
    rw [continues, List.mem_filter, decide_eq_true_eq] at htm
    obtain ⟨htm, hty⟩ := htm
    unfold triggers at htm
    rw [List.mem_filterMap] at htm
    obtain ⟨x, hx, hxt⟩ := htm
    have hx' : x = .trigger t := by cases x <;> simp at hxt; rw [hxt]
    subst hx'
    obtain ⟨s1, eff, s2, h1, hm, hxe⟩ := arm_effect (P := fun s' => True) trivial (fun _ _ _ _ _ => trivial) hx
    cases hm with
    | chokeQuorum _ _ _ h => rcases h with ⟨sc, h⟩ | h | h
                             · exact .inl ⟨sc, h⟩
                             · exact .inr h
                             · exact absurd h hi
    | recvChokeQc _ h => obtain ⟨sc, h, _⟩ := h; exact .inl ⟨sc, h⟩
    | adopt =>
      simp only [List.cons_append, List.mem_cons, List.mem_append, List.mem_map, List.mem_singleton,
        List.not_mem_nil, or_false, reduceCtorEq, false_or, and_false, exists_false, Effect.trigger.injEq] at hxe
      subst hxe; simp [stTrigger] at hty
    | castVote => cases hl : s1.isLeader <;> simp [hl] at hxe
    | enterRound => split at hxe <;> simp at hxe
    | trigQcId _ ty qc =>
      simp at hxe; subst hxe
      cases h : qc.voteType <;> simp [stTrigger, h, VoteType.toTrigger] at hty
    | trigQcHash _ ty qc =>
      simp at hxe; subst hxe
      cases h : ty <;> simp [stTrigger, h, VoteType.toTrigger] at hty
    | _ =>
      simp only [List.mem_cons, List.not_mem_nil, or_false, false_or, reduceCtorEq, Effect.trigger.injEq] at hxe
      try (subst hxe; simp [stTrigger, walTrig] at hty)
  apply key
  have aggv : ∀ qc : AggregatedVote, wp (handleAggregatedVote qc : M T Unit) e ⟨s, []⟩ (fun _ w => P w) (fun _ w => P w) := by
    intro qc
    unfold handleAggregatedVote
    wps
    refine ⟨fun _ => pnone _, fun _ => ⟨fun _ => ⟨fun _ => pnone _, fun _ => pnone _⟩, fun _ => ⟨fun _ => pnone _, fun _ =>
      ⟨fun _ => pnone _, fun _ => ⟨fun _ => pnone _, fun _ h => ?_⟩⟩⟩⟩⟩
    cases hv : qc.voteType <;> simp [continues, triggers, stTrigger, hv, VoteType.toTrigger] at h
  rcases hinput with ⟨sc, rfl⟩ | ⟨h, r, lr, rfl⟩
  · have : wp (runArm (.verified (.signedChoke sc))) e ⟨s, []⟩ (fun _ w => P w) (fun _ w => P w) := by
      unfold runArm handleMsg handleSignedChoke
      wps
      refine ⟨fun _ => pnone _, fun _ => ⟨fun _ => pnone _, fun _ => ⟨fun _ => pnone _, fun _ => ⟨fun hgt => ?_, fun _ => ?_⟩⟩⟩⟩
      · split
        · exact wp_mono (aggv _) (fun _ _ h => h) (fun _ _ h => by simp [h])
        · exact wp_mono (aggv _) (fun _ _ h => h) (fun _ _ h => by simp [h])
        · rename_i ac hac
          have := hq sc ac rfl hac
          omega
      · refine wp_mono (wp_checkChoke_right (hok.insert _ _) rfl hc) (fun _ w h _ => ⟨h.1, h.2.2⟩) (fun _ _ h => h.elim)
    exact wp_post this
  · have : wp (runArm (.event (.brake h r lr))) e ⟨s, []⟩ (fun _ w => P w) (fun _ w => P w) := by
      unfold runArm handleEvent handleBrake
      wps [broadcast]
      refine ⟨fun _ => pnone _, fun _ => ⟨fun _ => pnone _, fun _ => ⟨fun _ => pnone _, fun _ => ⟨fun _ => by simp [pnone],
        fun _ => ⟨fun sig hsig => ?_, fun _ => by simp [pnone]⟩⟩⟩⟩⟩
      refine wp_saveWalLR (fun _ => by simp [pnone])
        (fun lock b _ _ _ => by simp [P, continues, triggers]) (fun lock b _ _ _ => ?_)
      refine wp_mono (wp_checkChoke_right (hok.insert _ _) ?_ hc) (fun _ w h _ => ⟨h.1, h.2.2⟩) (fun _ _ h => h.elim)
      simp [continues, triggers]
    exact wp_post this

namespace StDemo

/-- Validator 1 at height 7 has received the chokes of 2 and 3 for its round 0. -/
def chokeIns : List (Env C × Input C) :=
  [(env, .verified (.signedChoke (choke 2 7 0 (.precommitQC mockInitQc)))),
   (env, .verified (.signedChoke (choke 3 7 0 (.precommitQC mockInitQc))))]

example : ((st0.after chokeIns).map fun s => (s.consensusPower, s.height, s.round, (heldChokes s 0).length)) =
      some (true, 7, 0, 2) ∧
    ((st0.after chokeIns).map fun s => continues (effects env
      (.verified (.signedChoke (choke 4 7 0 (.precommitQC mockInitQc)))) s)) =
      some [stTrigger .continueRound [] none 1 7] ∧
    ((st0.after chokeIns).map fun s => continues (effects env
      (.verified (.signedChoke (choke 3 7 0 (.precommitQC mockInitQc)))) s)) = some [] ∧
    ((st0.after chokeIns).map fun s => continues (effects env (.event (.brake 7 0 none)) s)) =
      some [stTrigger .continueRound [] none 1 7] := by
  decide +kernel

example : ∀ sigs voters, env.crypto.aggregate sigs voters ≠ none := by simp [env, crypto]

/-- **C41 is false in two ways.** One choke of a later round that names three nobodies makes the node continue at
an arbitrary round; and chokes of addresses outside the authority list are counted. Both pass the verification. -/
theorem C41_outsiders_unblock_counterexample :
    (let sc := choke 77 7 1000 (.chokeQC ⟨7, 999, [0], [[], [], []]⟩)
     verifyTask env.crypto (.signedChoke sc : OverlordMsg C) st0.authority = true ∧
     st0.authority.contains [77] = false ∧
     continues (effects env (.verified (.signedChoke sc)) st0) = [stTrigger .continueRound [] none 1000 7] ∧
     heldChokes (next env (.verified (.signedChoke sc)) st0) 999 = []) ∧
    (let c := fun a => choke a 7 0 (.precommitQC mockInitQc)
     (∀ a ∈ [77, 78, 79], verifyTask env.crypto (.signedChoke (c a) : OverlordMsg C) st0.authority = true ∧
       st0.authority.contains [a] = false) ∧
     st0.trace [(env, .verified (.signedChoke (c 77))), (env, .verified (.signedChoke (c 78))),
       (env, .verified (.signedChoke (c 79)))] = [.trigger (stTrigger .continueRound [] none 1 7)]) := by
  decide +kernel

end StDemo

/-! ## C19 — only certificates above the threshold are acted on -/

/-- What the verification of an aggregated vote establishes: its signature is verified for exactly the validators
its bitmap selects. Missing: that these hold more than two thirds of the weight. -/
theorem C19_signature_partial (l : List Node) (h : Distinct l) (hz : Sized l) (c : Crypto) (qc : AggregatedVote)
    (hv : verifyTask c (.aggregatedVote qc : OverlordMsg T) (Authority.update l) = true) :
    ∃ voters : List Address, voters.Nodup ∧
      (∀ a, a ∈ voters ↔ a ∈ l.map Node.address ∧ selected l qc.signature.addressBitmap a = true) ∧
      c.verifyAgg qc.signature.signature
        (c.hash (encVote { height := qc.height, round := qc.round, voteType := qc.voteType, blockHash := qc.blockHash }))
        voters = true := by
  have hq : qcVoters qc.signature.addressBitmap (Authority.update l) =
      (Authority.update l).getVoters qc.signature.addressBitmap := by
    unfold qcVoters; rw [C08_threshold_is_two_thirds l h hz]; rfl
  simp only [verifyTask, verifyQc, hq] at hv
  rw [getVoters_eq l h] at hv
  refine ⟨_, ?_, ?_, hv⟩
  · have : ((sortNodes l).map Node.address).Nodup := ((sortNodes_perm l).map _).nodup_iff.2 h
    exact this.sublist (List.filter_sublist.map _)
  · intro a
    simp only [List.mem_map, List.mem_filter, (sortNodes_perm l).mem_iff]
    constructor
    · rintro ⟨n, ⟨hn, hs⟩, rfl⟩; exact ⟨⟨n, hn, rfl⟩, hs⟩
    · rintro ⟨⟨n, hn, rfl⟩, hs⟩; exact ⟨n, ⟨hn, hs⟩, rfl⟩

example : verifyTask StDemo.env.crypto (.aggregatedVote (StDemo.cert [1, 2, 4] 7 0 .prevote [5]) : OverlordMsg StDemo.C)
    (Authority.update StDemo.nodes) = true ∧ Distinct StDemo.nodes ∧ Sized StDemo.nodes :=
  ⟨by decide +kernel, by unfold Distinct; decide, by decide, by decide⟩

namespace StDemo

/-- One Byzantine validator (number 4) of four signs a precommit certificate alone. -/
def alone : AggregatedVote := cert [4] 7 0 .precommit [5]

/-- **C19 is false**: a certificate of one validator out of four passes the verification, is handed to the voting
state machine, and the block is committed with it. -/
theorem C19_one_of_four_counterexample :
    verifyTask env.crypto (.aggregatedVote alone : OverlordMsg C) st0.authority = true ∧
    ¬ Quorum nodes (selected nodes alone.signature.addressBitmap) ∧
    let ins : List (Env C × Input C) :=
      [(env, .verified (.signedProposal (prop 2 7 0 [5, 5] [5]))), (env, .resp ⟨7, 0, [5], true⟩),
       (env, .verified (.aggregatedVote alone))]
    (.trigger (stTrigger .precommitQC [5] none 0 7) ∈ st0.trace ins) ∧
    (st0.trace (ins ++ [(env, .event (.commit [5]))])).any
      (fun x => match x with | .commitCall 7 c _ => c.content == [5, 5] | _ => false) = true := by
  decide +kernel

end StDemo

/-! ## C20 — evidence inside chokes and proposals is verified -/

/-- What is verified about the certificate inside a proposal: its signature, for exactly the validators of its
bitmap. Missing: the threshold, and that it is a prevote certificate for the proposed block at the claimed round. -/
theorem C20_polc_signature_partial (l : List Node) (h : Distinct l) (hz : Sized l) (c : Crypto) (sp : SignedProposal T)
    (polc : PoLC) (hp : sp.proposal.lock = some polc)
    (hv : verifyTask c (.signedProposal sp) (Authority.update l) = true) :
    (∃ b, encProposal sp.proposal = some b ∧ c.verifySig sp.signature (c.hash b) sp.proposal.proposer = true) ∧
    ∃ voters : List Address, voters.Nodup ∧
      (∀ a, a ∈ voters ↔ a ∈ l.map Node.address ∧ selected l polc.lockVotes.signature.addressBitmap a = true) ∧
      c.verifyAgg polc.lockVotes.signature.signature
        (c.hash (encVote ⟨polc.lockVotes.height, polc.lockVotes.round, polc.lockVotes.voteType,
          polc.lockVotes.blockHash⟩)) voters = true := by
  unfold verifyTask at hv
  simp only [hp] at hv
  cases hb : encProposal sp.proposal with
  | none => rw [hb] at hv; cases hv
  | some b =>
    rw [hb] at hv
    simp only at hv
    split at hv
    · exact ⟨⟨b, rfl, by assumption⟩, C19_signature_partial (T := T) l h hz c polc.lockVotes hv⟩
    · cases hv

/-- A choke certificate inside a choke is acted on only if it lists more than two thirds of the number of
validators. Missing: that the list is one of distinct validators, and the signature. -/
theorem C20_choke_count_partial (e : Env T) (s : State T) (sc : SignedChoke) (ac : AggregatedChoke)
    (hf : sc.choke.from = .chokeQC ac) (hr : s.round < sc.choke.round)
    (hx : effects e (.verified (.signedChoke sc)) s ≠ [] ∨ next e (.verified (.signedChoke sc)) s ≠ s) :
    2 * s.authority.len < 3 * ac.voters.length := by
  apply Decidable.byContradiction
  intro hn
  have : wp (runArm (.verified (.signedChoke sc))) e ⟨s, []⟩ (fun _ w => w = ⟨s, []⟩) (fun _ w => w = ⟨s, []⟩) := by
    unfold runArm handleMsg handleSignedChoke handleAggregatedChoke
    wps [hf]
    refine ⟨fun _ => trivial, fun _ => ⟨fun _ => trivial, fun _ => ⟨fun _ => trivial, fun _ => ⟨fun hgt => ?_, fun h1 => absurd hr h1⟩⟩⟩⟩
    refine ⟨fun _ => by simp, fun h1 => ?_⟩
    omega
  have := wp_post this
  unfold effects next at hx
  rw [this] at hx
  simp at hx

namespace StDemo

/-- A precommit certificate nobody signed. -/
def fabricated : AggregatedVote := ⟨⟨[0], [240]⟩, .precommit, 7, 0, [5], [77]⟩
/-- A prevote certificate of all four for block `[6]` at round 0. -/
def otherBlock : AggregatedVote := cert [1, 2, 3, 4] 7 0 .prevote [6]
/-- The leader of round 1 proposes `[5]` with a lock round 12 and the certificate for `[6]`. -/
def lying : SignedProposal C :=
  let x : Proposal C :=
    { height := 7, round := 1, content := [5, 5], blockHash := [5], lock := some ⟨12, otherBlock⟩, proposer := [3] }
  ⟨3 :: (encProposal x).getD [], x⟩

/-- **C20 is false.** An outsider's choke of a later round carries a certificate nobody signed and it is acted on
like a verified one (the block gets committed); a proposal's lock evidence may be about another block and another
round than claimed. -/
theorem C20_unverified_evidence_counterexample :
    (let sc := choke 77 7 5 (.precommitQC fabricated)
     verifyTask env.crypto (.signedChoke sc : OverlordMsg C) st0.authority = true ∧
     verifyTask env.crypto (.aggregatedVote fabricated : OverlordMsg C) st0.authority = false ∧
     let ins : List (Env C × Input C) :=
      [(env, .verified (.signedProposal (prop 2 7 0 [5, 5] [5]))), (env, .resp ⟨7, 0, [5], true⟩),
       (env, .verified (.signedChoke sc))]
     (.trigger (stTrigger .precommitQC [5] none 0 7) ∈ st0.trace ins) ∧
     (st0.trace (ins ++ [(env, .event (.commit [5]))])).any
       (fun x => match x with | .commitCall 7 c _ => c.content == [5, 5] | _ => false) = true) ∧
    (verifyTask env.crypto (.signedProposal lying) st0.authority = true ∧
     otherBlock.blockHash ≠ lying.proposal.blockHash ∧
     .trigger (stTrigger .proposal [5] (some 12) 1 7) ∈
      st0.trace [(env, .event (.newRoundInfo 7 1 none none (.precommitQC (2 ^ 64 - 1)) none none)),
        (env, .verified (.signedProposal lying))]) := by
  decide +kernel

example : ∃ sp : SignedProposal C, sp.proposal.lock ≠ none ∧
    verifyTask env.crypto (.signedProposal sp) (Authority.update nodes) = true :=
  ⟨lying, by decide +kernel⟩
example : let sc := choke 2 7 1 (.chokeQC ⟨7, 0, [0], [[1], [2], [3]]⟩)
    effects env (.verified (.signedChoke sc)) st0 ≠ [] ∧ st0.round < sc.choke.round := by decide +kernel

end StDemo

end Overlord
