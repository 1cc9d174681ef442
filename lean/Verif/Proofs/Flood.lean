import Verif.Proofs.Memory
import Verif.Proofs.StateDemo
import Verif.Proofs.NoPanic

/-! Messages that a node keeps, however many there are. -/

set_option linter.unusedSimpArgs false
set_option linter.unusedVariables false
set_option linter.unusedSectionVars false

namespace Overlord
namespace Mem
open M Spec

variable {T : Type} [ContentCodec T] [DecidableEq T]

theorem flood {α : Type} {e : Env T} (msg : α → OverlordMsg T) (G : State T → Prop) (H : State T → α → Prop) (R : α → α → Prop) (F : α → Prop)
    (step : ∀ s x, G s → F x → wp (runArm (.verified (msg x))) e ⟨s, []⟩ (fun b w => b = true ∧ G w.st ∧ H w.st x ∧ ∀ y, R y x → H s y → H w.st y)
      (fun _ _ => False)) :
    ∀ (l : List α) (s : State T), G s → (∀ x ∈ l, F x) → l.Pairwise R →
      ∃ s', s.after (l.map fun x => (e, .verified (msg x))) = some s' ∧ G s' ∧ (∀ x ∈ l, H s' x) ∧
        ∀ y, H s y → (∀ x ∈ l, R y x) → H s' y := by
  intro l
  induction l with
  | nil => intro s hg _ _; exact ⟨s, rfl, hg, by simp, fun y hy _ => hy⟩
  | cons x l ih =>
    intro s hg hF hR
    have h1 := step s x hg (hF x (List.mem_cons_self ..))
    rw [List.pairwise_cons] at hR
    unfold wp at h1
    split at h1
    · rename_i a w hw
      obtain ⟨rfl, g1, g2, g3⟩ := h1
      obtain ⟨s', k1, k2, k3, k4⟩ := ih w.st g1 (fun y hy => hF y (List.mem_cons_of_mem _ hy)) hR.2
      refine ⟨s', ?_, k2, ?_, fun y hy hyl => k4 y (g3 y (hyl x (List.mem_cons_self ..)) hy) fun z hz => hyl z (List.mem_cons_of_mem _ hz)⟩
      · simp only [List.map_cons, State.after]
        rw [hw]
        exact k1
      · intro z hz
        rcases List.mem_cons.1 hz with rfl | hz
        · exact k4 z g2 hR.1
        · exact k3 z hz
    · exact h1.elim

/-- The node is a validator and is at this position, with this list. -/
structure Here (h r : Nat) (a : Authority) (s : State T) : Prop where
  height : s.height = h
  round : s.round = r
  auth : s.authority = a
  power : s.consensusPower = true

theorem filter_here {s : State T} {h r : Nat} {a : Authority} (hs : Here h r a s) (hn : h + 5 < U64) (hn2 : r + 10 < U64) : s.filterMessage h r = false := by
  unfold State.filterMessage FUTURE_HEIGHT_GAP FUTURE_ROUND_GAP
  rw [hs.height, hs.round, Nat.mod_eq_of_lt hn, Nat.mod_eq_of_lt hn2]
  simp

theorem insert_error {c : ProposalCollector T} {h r : Nat} {sp : SignedProposal T} {x : Err} (hi : c.insert h r sp = .error x) : x ≠ .panic := by
  unfold ProposalCollector.insert at hi
  dsimp only at hi
  split at hi
  · split at hi
    · cases hi
    · simp only [Except.error.injEq] at hi; subst hi; simp
  · cases hi

theorem block_step {e : Env T} {h r : Nat} {a : Authority} (hn : h + 5 < U64) (hn2 : r + 10 < U64) (s : State T) (sp : SignedProposal T)
    (hs : Here h r a s) (hp : sp.proposal.height = h ∧ sp.proposal.round = r ∧ a.contains sp.proposal.proposer = true ∧
      a.getProposer e.mode h r = .ok sp.proposal.proposer) :
    wp (runArm (.verified (.signedProposal sp))) e ⟨s, []⟩
      (fun b w => b = true ∧ Here h r a w.st ∧ HoldsBlock w.st sp.proposal.blockHash ∧
        ∀ y : SignedProposal T, True → HoldsBlock s y.proposal.blockHash → HoldsBlock w.st y.proposal.blockHash) (fun _ _ => False) := by
  obtain ⟨h1, h2, h3, h4⟩ := hp
  have hf := filter_here hs hn hn2
  have hb : ∀ y : SignedProposal T, HoldsBlock s y.proposal.blockHash →
      ∃ c, (s.hashWithBlock.insert sp.proposal.blockHash sp.proposal.content).get? y.proposal.blockHash = some c := by
    rintro y ⟨c, hc⟩
    rw [AMap.get?_insert]
    split
    · exact ⟨_, rfl⟩
    · exact ⟨c, hc⟩
  have hb' : ∃ c, (s.hashWithBlock.insert sp.proposal.blockHash sp.proposal.content).get? sp.proposal.blockHash = some c := ⟨_, AMap.get?_insert_self ..⟩
  obtain ⟨rfl, rfl, rfl, hpw⟩ := hs
  unfold runArm handleMsg handleSignedProposal verifyProposer verifyAddress filterSignedProposal checkBlock
  wps
  simp [h1, h2, h3, h4, hf, hpw]
  refine ⟨fun ps hps => ⟨⟨rfl, rfl, rfl, rfl⟩, hb', fun y hy => hb y hy⟩, fun x hx => ⟨fun hxp => absurd hxp (insert_error hx), fun _ =>
    ⟨⟨rfl, rfl, rfl, rfl⟩, hb', fun y hy => hb y hy⟩⟩⟩

theorem cert_step {e : Env T} {h r : Nat} {a : Authority} (s : State T) (qc : AggregatedVote)
    (hs : Here h r a s) (hp : qc.height = h ∧ r ≤ qc.round) :
    wp (runArm (.verified (.aggregatedVote qc))) e ⟨s, []⟩
      (fun b w => b = true ∧ Here h r a w.st ∧ HoldsCertificate w.st qc ∧
        ∀ y : AggregatedVote, ¬ SameSlot y qc → HoldsCertificate s y → HoldsCertificate w.st y) (fun _ _ => False) := by
  obtain ⟨h1, h2⟩ := hp
  obtain ⟨rfl, rfl, rfl, hpw⟩ := hs
  have k1 : HoldsCertificate ({ s with votes := s.votes.setQc qc } : State T) qc := by
    unfold HoldsCertificate
    rw [getQcById_iff, qcId_setQc]
    simp
  have k2 : ∀ y : AggregatedVote, ¬ SameSlot y qc → HoldsCertificate s y → HoldsCertificate ({ s with votes := s.votes.setQc qc } : State T) y := by
    intro y hn hy
    unfold HoldsCertificate at *
    rw [getQcById_iff] at hy ⊢
    show qcId (s.votes.setQc qc) _ _ _ = _
    rw [qcId_setQc]
    split
    · rename_i hc
      exact absurd (show SameSlot y qc from ⟨hc.1.symm, hc.2.1.symm, hc.2.2.symm⟩) hn
    · exact hy
  unfold runArm handleMsg handleAggregatedVote
  wps
  have h3 : ¬ qc.round < s.round := by omega
  simp [h1, h3, hpw]
  refine ⟨fun _ _ => ⟨⟨rfl, rfl, rfl, rfl⟩, k1, k2⟩, fun _ => ⟨⟨rfl, rfl, rfl, rfl⟩, k1, k2⟩⟩

theorem choke_step {e : Env T} {h r : Nat} {a : Authority} (s : State T) (sc : SignedChoke)
    (hs : Here h r a s) (hp : sc.choke.height = h ∧ sc.choke.round = r) :
    wp (runArm (.verified (.signedChoke sc))) e ⟨s, []⟩
      (fun b w => b = true ∧ Here h r a w.st ∧ HoldsChoke w.st sc ∧
        ∀ y : SignedChoke, y.address ≠ sc.address → HoldsChoke s y → HoldsChoke w.st y) (fun _ _ => False) := by
  obtain ⟨h1, h2⟩ := hp
  obtain ⟨rfl, rfl, rfl, hpw⟩ := hs
  have k1 : ∀ c : ChokeCollector, c.chokes = (s.chokes.insert sc.choke.round sc).chokes →
      HoldsChoke ({ s with chokes := c } : State T) sc := by
    intro c hc
    unfold HoldsChoke
    simp only [hc, ChokeCollector.insert, AMap.get?_insert_self, Option.some.injEq, exists_eq_left']
  have k2 : ∀ c : ChokeCollector, c.chokes = (s.chokes.insert sc.choke.round sc).chokes → ∀ y : SignedChoke, y.address ≠ sc.address → HoldsChoke s y →
      HoldsChoke ({ s with chokes := c } : State T) y := by
    rintro c hc y hn ⟨m, hm, hy⟩
    unfold HoldsChoke
    simp only [hc, ChokeCollector.insert, AMap.get?_insert]
    split
    · rename_i hr
      rw [hr, hm]
      refine ⟨_, rfl, ?_⟩
      rw [Option.getD_some, AMap.get?_insert, if_neg (fun h => hn h.symm)]
      exact hy
    · exact ⟨m, hm, hy⟩
  unfold runArm handleMsg handleSignedChoke checkChokeAboveThreshold aggregateSignatures
  wps
  simp [h1, h2, hpw]
  have hr : sc.choke.round = s.round := h2
  rw [hr] at k1 k2
  cases hm : (s.chokes.insert s.round sc).maxRoundAboveThreshold s.authority.len with
  | none =>
    wps
    exact ⟨⟨rfl, rfl, rfl, rfl⟩, k1 _ rfl, k2 _ rfl⟩
  | some round =>
    dsimp only
    wps
    refine ⟨fun _ => ⟨⟨rfl, rfl, rfl, rfl⟩, k1 _ rfl, k2 _ rfl⟩, fun _ => ⟨fun scs hs => ⟨fun sig hsig => ⟨⟨rfl, rfl, rfl, rfl⟩, k1 _ rfl, k2 _ rfl⟩, fun hn => ?_⟩,
      fun hn => absurd hn (NoPanic.chokes_some hm)⟩⟩
    exact ⟨by simp, fun _ => ⟨⟨rfl, rfl, rfl, rfl⟩, k1 _ rfl, k2 _ rfl⟩⟩

/-- The results of block checks stay. -/
theorem checks_stay {e : Env T} {i : Input T} {s : State T} {eff : List (Effect T)} {s' : State T} (hm : Micro e i s eff s') {hash : Hash}
    (h : HoldsCheck s hash) : HoldsCheck s' hash := by
  cases hm with
  | checked r =>
    unfold HoldsCheck at *
    show ∃ b, (s.isFullTransaction.insert _ _).get? hash = some b
    rw [AMap.get?_insert]
    split
    · exact ⟨_, rfl⟩
    · exact h
  | _ => exact h

end Mem
end Overlord
