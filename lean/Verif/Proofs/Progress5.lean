import Verif.Proofs.Progress4
import Verif.Proofs.ReasonNet

/-! A choke of a later round brings a node out of its round, if its reason is not a prevote certificate (used for C54). -/

set_option linter.unusedSimpArgs false
set_option linter.unusedVariables false
set_option linter.unusedSectionVars false

namespace Overlord.Pace
open Spec M Rdy

variable {T : Type} [ContentCodec T] [DecidableEq T]

/-- A choke of a later round, after a choke certificate. -/
theorem later_choke {e : Env T} {s : State T} {sc : SignedChoke} {ac : AggregatedChoke} (hp : s.consensusPower = true) (h1 : sc.choke.height = s.height)
    (h2 : s.round < sc.choke.round) (hf : sc.choke.from = .chokeQC ac) (hq : 2 * s.authority.len < 3 * ac.voters.length) :
    .trigger (stTrigger .continueRound [] none (inc64 ac.round) s.height) ∈ (runArm (.verified (.signedChoke sc)) e ⟨s, []⟩).2.log := by
  refine wp_post (P := fun w => .trigger (stTrigger .continueRound [] none (inc64 ac.round) s.height) ∈ w.log) ?_
  unfold runArm handleMsg handleSignedChoke handleAggregatedChoke
  simp only [hf]
  wps
  simp only [hp, h1, h2, Bool.true_eq_false, false_and, false_implies, not_false_eq_true, true_implies, true_and, ne_eq, not_true_eq_false, gt_iff_lt,
    show ¬ sc.choke.round < s.round by omega, show ¬ ac.voters.length * 3 ≤ s.authority.len * 2 by omega]
  simp

/-- A choke of a later round, after a precommit certificate for no block. -/
theorem later_nil {e : Env T} {s : State T} {sc : SignedChoke} {qc : AggregatedVote} (hp : s.consensusPower = true) (h1 : sc.choke.height = s.height)
    (h2 : s.round < sc.choke.round) (hf : sc.choke.from = .precommitQC qc) (g1 : qc.voteType = .precommit) (g2 : qc.height = s.height)
    (g3 : s.round ≤ qc.round) (g4 : qc.blockHash = []) :
    .trigger (stTrigger .precommitQC [] none qc.round s.height) ∈ (runArm (.verified (.signedChoke sc)) e ⟨s, []⟩).2.log := by
  refine wp_post (P := fun w => .trigger (stTrigger .precommitQC [] none qc.round s.height) ∈ w.log) ?_
  unfold runArm handleMsg handleSignedChoke handleAggregatedVote
  simp only [hf]
  wps
  simp only [hp, h1, h2, g1, g2, g4, Bool.true_eq_false, false_and, false_implies, not_false_eq_true, true_implies, true_and, ne_eq, not_true_eq_false, gt_iff_lt,
    show ¬ sc.choke.round < s.round by omega, show ¬ qc.round < s.round by omega, VoteType.toTrigger]
  simp

section
variable {f : Hash → Nat × T} {lists : Nat → List Node} {correct : Address → Bool} {mode : LeaderMode} {leader : Nat → Nat → Address}

namespace Halted
variable {σ : NetRun T} {n0 : Nat} {a b : Address} {k r r' : Nat}

/-- The rounds of halted nodes are `u64` values. -/
theorem small (h : Halted f lists correct mode leader σ n0 a k r) : r + 1 < 2 ^ 64 := by
  obtain ⟨m, sc, h1, _, _, _, _, _, h7, _⟩ := h.chokes (Nat.le_refl _)
  refine h.served.rounds (m + 1) r (by omega) ?_
  unfold senders at h7
  rw [held_eq] at h7
  cases hg : AMap.get? (σ.node (m + 1) a).st.chokes.chokes r with
  | none => rw [hg] at h7; simp at h7
  | some _ => rfl

/-- The choke of a halted node brings nodes of lower rounds to later ones. -/
theorem catch_up (h : Halted f lists correct mode leader σ n0 a k r) {live : Address → Bool} (ha : live a = true) (hb : live b = true)
    (hca : ChokesArrive σ n0 live) (hbh : Halted f lists correct mode leader σ n0 b k r') (hr : r < r')
    (hno : ∀ m sc qc, n0 ≤ m → σ.Broadcasts m b (.signedChoke sc) → sc.choke.from ≠ .prevoteQC qc) : False := by
  obtain ⟨M, sc0, c1, c2, _⟩ := h.chokes (Nat.le_refl _)
  obtain ⟨m, sc, h1, _, h3, h4, h5, h6, _⟩ := hbh.chokes (n := M) (by omega)
  have hab : b ≠ a := by
    rintro rfl
    have e1 := h.inr.smr
    have e2 := hbh.inr.smr
    omega
  obtain ⟨m2, q1, hver⟩ := h.checks ha hca hb hab (by omega) h3 h4
  obtain ⟨m3, e, g1, g2, g3, g4⟩ := h.handles (m := m2) (by omega) hver
  have hm3 : n0 ≤ m3 := by omega
  have hrd := h.clear_round hm3 (h.clear_on (by omega) c2 m3 (by omega))
  obtain ⟨hp1, hp2⟩ := h.pos hm3
  have hex := ((Why.net_why h.enc h.glists h.few h.leaders (past_run σ (m + 1)) (past_ok h.ok (m + 1))).2 b hbh.cor).log (.broadcast (.signedChoke sc)) (List.mem_of_mem_drop h3)
  have hex : Explains (lists sc.choke.height).length sc.choke.height sc.choke.round sc.choke.from := (hex (by omega)).1
  have hau := ((h.facts hm3).ready.gen.gen a h.cor).up (h.served.up _ hm3) |>.st.1.auth hp2
  have hin : ∀ t, .trigger t ∈ (runArm (.verified (.signedChoke sc)) e ⟨(σ.node m3 a).st, []⟩).2.log → t ∈ (σ.node (m3 + 1) a).sys.trigQ := by
    intro t ht
    rw [g4]; exact List.mem_append_right _ (mem_trigsOf.2 ht)
  have hsm := hbh.small
  cases hf : sc.choke.from with
  | prevoteQC qc => exact hno m sc qc (by omega) h3 hf
  | precommitQC qc =>
    rw [hf] at hex
    obtain ⟨k1, k2, k3, k4⟩ := hex
    refine h.noNil (m := m3 + 1) (by omega) (hin _ (later_nil hp2 (by omega) (by omega) hf k1 (by omega) (by omega) k4)) rfl rfl (show _ = k from hp1) ?_ rfl
    show r ≤ qc.round
    omega
  | chokeQC qc =>
    rw [hf] at hex
    obtain ⟨k1, k2⟩ := hex
    refine h.noCont (m := m3 + 1) (by omega) (hin _ (later_choke hp2 (by omega) (by omega) hf ?_)) rfl rfl (show _ = k from hp1) ?_
    · rw [show (σ.node m3 a).st.authority = _ from hau, update_len, show ((σ.st m3).nodes a).st.height = k from hp1, ← h4]
      exact k2
    · show r < inc64 qc.round
      unfold inc64 U64; omega

end Halted

end

end Overlord.Pace
