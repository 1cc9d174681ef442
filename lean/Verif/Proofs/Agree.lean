import Verif.Spec.Net
import Verif.Proofs.NodeStart

/-! Agreement from the order and the justification of the votes of correct nodes (used for C43, C44). -/

set_option linter.unusedSimpArgs false
set_option linter.unusedVariables false

namespace Overlord
open Spec

/-- The position of a vote. -/
def votePosOf (v : Vote) : Pos := ⟨v.height, v.round, v.voteType.toStep.toNat⟩

/-- Certificates that can exist. -/
abbrev Certs := VoteType → Nat → Nat → Hash → Prop

/-- There is a prevote certificate of round `r` or later for something else than `x`. -/
def Evid (B : Certs) (H : Nat) (x : Hash) (r : Nat) : Prop := ∃ ρ z, r ≤ ρ ∧ z ≠ x ∧ B .prevote H ρ z

/-- What justifies the vote `v` of a node that has released `G1` (own votes: `mine`), if the certificates `B` can exist. -/
structure Justified (B : Certs) (mine : Vote → Prop) (v : Vote) : Prop where
  after : ∀ v', mine v' → Pos.lt (votePosOf v') (votePosOf v)
  prevote : v.voteType = .prevote → ∀ x r, x ≠ [] → mine ⟨v.height, r, .precommit, x⟩ → v.blockHash ≠ x → Evid B v.height x r
  precommit : v.voteType = .precommit → v.blockHash ≠ [] →
    B .prevote v.height v.round v.blockHash ∨
    ∃ q, v.round = q + 1 ∧ B .prevote v.height q v.blockHash ∧ ∀ v', mine v' → Pos.le (votePosOf v') ⟨v.height, v.round, 0⟩

section
variable (lists : Nat → List Node) (correct : Address → Bool)

/-- Every vote of a correct node in the history is justified when it is released. -/
def JustHist (G : List (Address × Vote)) : Prop :=
  ∀ G1 a v G2, G = G1 ++ (a, v) :: G2 → correct a = true →
    Justified (Certified lists correct G1) (fun v' => (a, v') ∈ G1) v

variable {lists correct}

theorem Certified.mono {G G' : List (Address × Vote)} {ty : VoteType} {k r : Nat} {h : Hash} (hs : ∀ x ∈ G, x ∈ G')
    (hc : Certified lists correct G ty k r h) : Certified lists correct G' ty k r h := by
  unfold Certified Quorum at *
  have := weight_mono (lists k) (fun a => !correct a || decide ((a, (⟨k, r, ty, h⟩ : Vote)) ∈ G))
    (fun a => !correct a || decide ((a, (⟨k, r, ty, h⟩ : Vote)) ∈ G')) (by
      intro n _ hn
      simp only [Bool.or_eq_true, Bool.not_eq_true', decide_eq_true_eq] at hn ⊢
      exact hn.imp id (hs _))
  omega

/-- Two certificates of one height have a correct voter in common. -/
theorem cert_inter (few : FewFaulty lists correct) {G G' : List (Address × Vote)} {ty ty' : VoteType} {k r r' : Nat} {h h' : Hash}
    (h1 : Certified lists correct G ty k r h) (h2 : Certified lists correct G' ty' k r' h') :
    ∃ a, correct a = true ∧ (a, ⟨k, r, ty, h⟩) ∈ G ∧ (a, ⟨k, r', ty', h'⟩) ∈ G' := by
  unfold Certified Quorum at h1 h2
  have hi := weight_inter (lists k) (fun a => !correct a || decide ((a, (⟨k, r, ty, h⟩ : Vote)) ∈ G))
    (fun a => !correct a || decide ((a, (⟨k, r', ty', h'⟩ : Vote)) ∈ G'))
  have hf := few k
  by_cases hx : ∃ n ∈ lists k, correct n.address = true ∧ (n.address, (⟨k, r, ty, h⟩ : Vote)) ∈ G ∧
      (n.address, (⟨k, r', ty', h'⟩ : Vote)) ∈ G'
  · obtain ⟨n, _, h3⟩ := hx; exact ⟨_, h3⟩
  · have := weight_mono (lists k) (fun a => (!correct a || decide ((a, (⟨k, r, ty, h⟩ : Vote)) ∈ G)) &&
      (!correct a || decide ((a, (⟨k, r', ty', h'⟩ : Vote)) ∈ G'))) (fun a => !correct a) (by
        intro n hn hp
        cases hc : correct n.address with
        | false => rfl
        | true =>
          simp only [hc, Bool.not_true, Bool.false_or, Bool.and_eq_true, decide_eq_true_eq] at hp
          exact absurd ⟨n, hn, hc, hp⟩ hx)
    omega

theorem cert_voter (few : FewFaulty lists correct) {G : List (Address × Vote)} {ty : VoteType} {k r : Nat} {h : Hash}
    (h1 : Certified lists correct G ty k r h) : ∃ a, correct a = true ∧ (a, ⟨k, r, ty, h⟩) ∈ G :=
  let ⟨a, h2, h3, _⟩ := cert_inter few h1 h1; ⟨a, h2, h3⟩

theorem JustHist.prefix {G G' : List (Address × Vote)} (h : JustHist lists correct (G ++ G')) : JustHist lists correct G := by
  intro G1 a v G2 he hc
  exact h G1 a v (G2 ++ G') (by rw [he]; simp) hc

theorem justHist_append {G : List (Address × Vote)} {a : Address} {v : Vote} (h : JustHist lists correct G)
    (hv : correct a = true → Justified (Certified lists correct G) (fun v' => (a, v') ∈ G) v) :
    JustHist lists correct (G ++ [(a, v)]) := by
  intro G1 b u G2 he hc
  rcases List.eq_nil_or_concat G2 with rfl | ⟨G3, y, rfl⟩
  · have := List.append_inj' he (by simp)
    obtain ⟨e1, e2⟩ := this
    subst e1
    cases e2
    exact hv hc
  · have he' : G ++ [(a, v)] = (G1 ++ (b, u) :: G3) ++ [y] := by rw [he]; simp
    have := List.append_inj' he' (by simp)
    exact h G1 b u G3 this.1 hc

/-- Where a vote of a correct node stands in the history. -/
theorem JustHist.split {G : List (Address × Vote)} (h : JustHist lists correct G) {a : Address} (ha : correct a = true) {v : Vote}
    (hv : (a, v) ∈ G) : ∃ G1 G2, G = G1 ++ (a, v) :: G2 ∧ Justified (Certified lists correct G1) (fun v' => (a, v') ∈ G1) v :=
  let ⟨G1, G2, he⟩ := List.append_of_mem hv
  ⟨G1, G2, he, h G1 a v G2 he ha⟩

/-- The votes of a correct node are released in order. -/
theorem JustHist.order {G : List (Address × Vote)} (h : JustHist lists correct G) {a : Address} (ha : correct a = true) {u v : Vote}
    (hu : (a, u) ∈ G) {G1 G2 : List (Address × Vote)} (he : G = G1 ++ (a, v) :: G2) (hlt : Pos.lt (votePosOf u) (votePosOf v)) :
    (a, u) ∈ G1 := by
  rw [he] at hu
  rcases List.mem_append.1 hu with hu | hu
  · exact hu
  · exfalso
    rcases List.mem_cons.1 hu with hu | hu
    · cases hu; exact Pos.lt_irrefl _ hlt
    · obtain ⟨G3, G4, hg⟩ := List.append_of_mem hu
      have := (h (G1 ++ (a, v) :: G3) a u G4 (by rw [he, hg]; simp) ha).after v (by simp)
      exact Pos.lt_irrefl _ (Pos.lt_of_lt_of_le hlt (Pos.le_of_lt this))

/-- A correct node releases one vote per position. -/
theorem JustHist.one {G : List (Address × Vote)} (h : JustHist lists correct G) {a : Address} (ha : correct a = true) {u v : Vote}
    (hu : (a, u) ∈ G) (hv : (a, v) ∈ G) (he : votePosOf u = votePosOf v) : u = v := by
  obtain ⟨G1, G2, hG, hj⟩ := h.split ha hv
  rw [hG] at hu
  rcases List.mem_append.1 hu with hu | hu
  · have := hj.after u hu
    rw [he] at this; exact absurd this (Pos.lt_irrefl _)
  · rcases List.mem_cons.1 hu with hu | hu
    · cases hu; rfl
    · obtain ⟨G3, G4, hg⟩ := List.append_of_mem hu
      have := (h (G1 ++ (a, v) :: G3) a u G4 (by rw [hG, hg]; simp) ha).after v (by simp)
      rw [he] at this; exact absurd this (Pos.lt_irrefl _)

/-- One hash per height, round and type. -/
theorem cert_unique (few : FewFaulty lists correct) {G : List (Address × Vote)} (h : JustHist lists correct G) {ty : VoteType} {k r : Nat}
    {x y : Hash} (h1 : Certified lists correct G ty k r x) (h2 : Certified lists correct G ty k r y) : x = y := by
  obtain ⟨a, ha, hx, hy⟩ := cert_inter few h1 h2
  have := h.one ha hx hy rfl
  cases this; rfl

/-- After a precommit certificate for `x`, no prevote certificate for anything else. -/
theorem no_other_prevote (few : FewFaulty lists correct) {G : List (Address × Vote)} (h : JustHist lists correct G) {k r ρ : Nat}
    {x z : Hash} (hx : x ≠ []) (h1 : Certified lists correct G .precommit k r x) (hr : r ≤ ρ) (hz : z ≠ x) :
    ¬ Certified lists correct G .prevote k ρ z := by
  suffices H : ∀ (m : Nat) (G0 G' : List (Address × Vote)), G0.length = m → G = G0 ++ G' → ∀ ρ z, r ≤ ρ → z ≠ x →
      ¬ Certified lists correct G0 .prevote k ρ z from fun hc => H _ G [] rfl (by simp) ρ z hr hz hc
  intro m
  induction m using Nat.strongRecOn with
  | _ m ih =>
    intro G0 G' hm hG ρ z hr hz hc
    obtain ⟨b, hb, hpre, hcom⟩ := cert_inter few hc h1
    have hG0 : JustHist lists correct G0 := (hG ▸ h).prefix
    obtain ⟨G1, G2, he, hj⟩ := hG0.split hb hpre
    rcases Nat.lt_or_ge r ρ with hlt | hge
    · -- `b` precommitted `x` first
      have hmem : (b, (⟨k, r, .precommit, x⟩ : Vote)) ∈ G1 :=
        h.order hb hcom (v := ⟨k, ρ, .prevote, z⟩) (G1 := G1) (G2 := G2 ++ G') (by rw [hG, he]; simp) (by simp [votePosOf, Pos.lt, hlt])
      obtain ⟨ρ', z', h3, h4, h5⟩ := hj.prevote rfl x r hx hmem hz
      exact ih G1.length (by rw [← hm, he]; simp) G1 ((b, ⟨k, ρ, .prevote, z⟩) :: G2 ++ G') rfl (by rw [hG, he]; simp) ρ' z' h3 h4 h5
    · have hρ : ρ = r := by omega
      subst hρ
      obtain ⟨G3, G4, he3, hj3⟩ := h.split hb hcom
      have hmem : (b, (⟨k, ρ, .prevote, z⟩ : Vote)) ∈ G3 := by
        refine h.order hb (by rw [hG]; exact List.mem_append_left _ hpre) he3 ?_
        simp [votePosOf, Pos.lt, VoteType.toStep]
      rcases hj3.precommit rfl hx with h4 | ⟨q, h4, h5, h6⟩
      · have e := cert_unique few h (Certified.mono (G' := G) (by rw [he3]; intro y hy; exact List.mem_append_left _ hy) h4)
          (Certified.mono (G' := G) (by rw [hG]; intro y hy; exact List.mem_append_left _ hy) hc)
        exact hz e.symm
      · have := h6 _ hmem
        simp [votePosOf, Pos.le, VoteType.toStep] at this

/-- Two precommit certificates of one height are for the same block. -/
theorem cert_agree (few : FewFaulty lists correct) {G : List (Address × Vote)} (h : JustHist lists correct G) {k r ρ : Nat}
    {x y : Hash} (hx : x ≠ []) (hy : y ≠ []) (h1 : Certified lists correct G .precommit k r x)
    (h2 : Certified lists correct G .precommit k ρ y) : x = y := by
  suffices H : ∀ r ρ x y, x ≠ [] → y ≠ [] → Certified lists correct G .precommit k r x → Certified lists correct G .precommit k ρ y →
      r ≤ ρ → x = y by
    rcases Nat.le_total r ρ with hle | hle
    · exact H r ρ x y hx hy h1 h2 hle
    · exact (H ρ r y x hy hx h2 h1 hle).symm
  intro r ρ x y hx hy h1 h2 hle
  by_cases hxy : x = y
  · exact hxy
  exfalso
  obtain ⟨a, ha, hv⟩ := cert_voter few h2
  obtain ⟨G1, G2, he, hj⟩ := h.split ha hv
  have hsub : ∀ v ∈ G1, v ∈ G := by rw [he]; intro v hv; exact List.mem_append_left _ hv
  rcases hj.precommit rfl hy with h3 | ⟨q, h3, h4, _⟩
  · exact no_other_prevote few h hx h1 hle (fun e => hxy e.symm) (Certified.mono hsub h3)
  · have h3 : ρ = q + 1 := h3
    rcases Nat.lt_or_ge q r with hlt | hge
    · have : ρ = r := by omega
      subst this
      exact hxy (cert_unique few h h1 h2)
    · exact no_other_prevote few h hx h1 hge (fun e => hxy e.symm) (Certified.mono hsub h4)

end

end Overlord
