import Verif.Proofs.Light
import Verif.Proofs.GoodDemo
import Verif.Props.Signed

/-!
# Proofs that convince outsiders (C62)
-/

set_option linter.unusedVariables false

namespace Overlord
open M Spec

variable {T : Type} [ContentCodec T] [DecidableEq T]

/-- **C62** (partial). Whatever a node goes through - any messages, timeouts, crashes in the middle of any input, restarts from its log -, an outsider
who has only the validator list of the height and the verification half of the signature scheme accepts the proof in everything that the node passes to `commit()`,
and every certificate that the node broadcasts (alone, as lock evidence in a proposal, as the reason in a choke) or saves.
Missing: nodes that are sent certificates below the threshold, or chokes with certificates that do not verify (the code does not check them,
C19, C20), and messages that arrive before their height (not verified, C21): with those it is false, see
`C62_false_for_weak_certificates`. -/
theorem C62_commit_proof_convinces_partial (V : Crypto) (lists : Nat → List Node) (hl : GoodLists lists) (a : Address) (as : List (NAct T)) (n : NodeSys T)
    (hr : (NodeSys.new a).run a as = some n) (ok : Along (LightStep V lists a) a (NodeSys.new a) as) (inTime : NothingEarly a as) :
    (∀ k c r, .commitCall k c r ∈ n.log → c.proof.height = k ∧ LightAccepts V (lists k) c.proof) ∧
    ∀ x ∈ n.log, Certificates V lists x := by
  have h := (Light.light_run hl _ as n rfl hr ok inTime).log
  exact ⟨fun k c r hx => h _ hx, h⟩

namespace Light

/-- A proof that an outsider accepts stands for precommits of the correct signers. -/
theorem accepts_certified {lists : Nat → List Node} {correct : Address → Bool} {votes : List (Address × Vote)} {V : Crypto} {p : Proof}
    (hu : Unforgeable correct votes V) (hv : VoteR ⟨p.height, p.round, .precommit, p.blockHash⟩) (h : LightAccepts V (lists p.height) p) :
    Certified lists correct votes .precommit p.height p.round p.blockHash := by
  obtain ⟨_, voters, _, h2, h3⟩ := h
  unfold Certified Quorum
  have := weight_mono (lists p.height) (fun a => decide (a ∈ voters))
    (fun a => !correct a || decide ((a, (⟨p.height, p.round, .precommit, p.blockHash⟩ : Vote)) ∈ votes)) (by
      intro n hn hsel
      simp only [Bool.or_eq_true, Bool.not_eq_true', decide_eq_true_eq] at hsel ⊢
      cases hc : correct n.address with
      | false => exact .inl rfl
      | true => exact .inr (hu.aggregated _ _ _ hv h3 _ hsel hc))
  omega

end Light

/-- **C62** (partial). With at most a third of the weight at faulty validators and unforgeable signatures, no two proofs for different blocks of one height
are both acceptable to outsiders - wherever the proofs come from -, and a proof that an outsider accepts is for the block that the
correct nodes commit.
Missing: as in C44 (`KeepsLocks`, `SignedSchedule`, `NoneEarly`). -/
theorem C62_no_conflicting_proofs_partial (lists : Nat → List Node) (correct : Address → Bool) (hl : GoodLists lists) (few : FewFaulty lists correct)
    (as : List (Address × NAct T)) (N : NetSys T) (hr : NetSys.new.run as = some N)
    (signed : SignedSchedule lists correct as) (inTime : NoneEarly correct as) (keeps : KeepsLocks lists correct as)
    (V : Crypto) (hu : Unforgeable correct N.votes V) (p : Proof) (hp : p.height < 2 ^ 64 ∧ p.round < 2 ^ 64) (hacc : LightAccepts V (lists p.height) p) :
    (∀ p' : Proof, p'.height = p.height → p'.round < 2 ^ 64 → LightAccepts V (lists p'.height) p' → p'.blockHash = p.blockHash) ∧
    ∀ a c r, correct a = true → .commitCall p.height c r ∈ (N.nodes a).log → c.proof.blockHash = p.blockHash := by
  have fair := Sign.signed_fair hl _ as N rfl hr signed inTime
  have inv := netInv_run hl few as _ N (netInv_new lists correct) fair keeps hr
  have h1 := Light.accepts_certified hu hp hacc
  refine ⟨fun p' he hr' hacc' => ?_, fun a c r ha hx => ?_⟩
  · have h2 := Light.accepts_certified hu ⟨by rw [he]; exact hp.1, hr'⟩ hacc'
    rw [he] at h2
    exact cert_agree few inv.just hacc'.1 hacc.1 h2 h1
  · have : Obs.call p.height c r ∈ obs (N.nodes a).log := List.mem_filterMap.2 ⟨_, hx, rfl⟩
    obtain ⟨h2, h3⟩ := (inv.sound a ha).obs _ this
    exact cert_agree few inv.just h3 hacc.1 h2 h1

/-! ### Examples -/

namespace LightDemo
open NetDemo

/-- Verification in the scheme of `StDemo.crypto`: a signature names its signer and what is signed. -/
def V : Crypto := StDemo.crypto []

theorem zip_flatten (h : Bytes) : ∀ (sigs : List Signature) (voters : List Address), sigs.length = voters.length →
    (∀ p ∈ sigs.zip voters, (p.1 == p.2 ++ h) = true) → sigs.flatten = voters.flatMap (· ++ h) := by
  intro sigs
  induction sigs with
  | nil => intro voters hl _; cases voters with
    | nil => rfl
    | cons v voters => simp at hl
  | cons s sigs ih =>
    intro voters hl hz
    cases voters with
    | nil => simp at hl
    | cons v voters =>
      have h1 : s = v ++ h := eq_of_beq (hz (s, v) (by simp))
      rw [List.flatten_cons, List.flatMap_cons, ih voters (by simpa using hl) (fun p hp => hz p (by simp [hp])), h1]

theorem implements (a : Address) : Implements V a (StDemo.crypto a) := by
  refine ⟨rfl, rfl, rfl, ?_, ?_⟩
  · intro h s hs
    simp only [StDemo.crypto, Option.some.injEq] at hs
    subst hs
    simp [V, StDemo.crypto]
  · intro sigs voters s h hs hl hz
    simp only [StDemo.crypto, Option.some.injEq] at hs
    subst hs
    have := zip_flatten h sigs voters hl hz
    simp [V, StDemo.crypto, this]

/-- Validator 1 goes to height 10, proposes, collects the votes, builds both certificates and commits. -/
def leads10 : List (NAct C) :=
  List.map (GoodDemo.toG 1) (([.start none, .raw (.richStatus GoodDemo.status10), .verified, .smr, .set] ++ [.event none, .cdone, .resp, .smr, .event none] ++
    dl (GoodDemo.voteOf 2 .prevote) ++ dl (GoodDemo.voteOf 3 .prevote) ++ [.smr, .event none] ++
    dl (GoodDemo.voteOf 2 .precommit) ++ dl (GoodDemo.voteOf 3 .precommit) ++ [.smr, .event none]) : List D)

/-- The conditions that depend on the state, computed. -/
def lightB (n : NodeSys C) (x : NAct C) : Bool :=
  startOkB [1] n x && match x with
    | .arm .verified _ _ => match n.verifiedQ with
      | m :: _ => NetDemo.uncheckedB m
      | [] => true
    | .arm (.raw m) _ _ => m.isRichStatus || match m.getHeight? with
      | some k => decide (k ≤ n.st.height)
      | none => true
    | _ => true

theorem alongB_mem {ok : NodeSys C → NAct C → Bool} {ok' : NodeSys C → NAct C → Prop} {addr : Address} :
    ∀ (as : List (NAct C)) (n : NodeSys C), (∀ n, ∀ x ∈ as, ok n x = true → ok' n x) → alongB ok addr n as = true → Along ok' addr n as := by
  intro as
  induction as with
  | nil => intro n _ _; trivial
  | cons x as ih =>
    intro n hs h
    simp only [alongB, Bool.and_eq_true] at h
    refine ⟨hs n x (by simp) h.1, fun n' hn => ?_⟩
    have h2 := h.2
    rw [hn] at h2
    exact ih n' (fun n y hy => hs n y (by simp [hy])) h2

theorem leads_checked : alongB lightB [1] (NodeSys.new [1]) leads10 = true := by decide +kernel

theorem leads_ok : Along (LightStep V lists [1]) [1] (NodeSys.new [1]) leads10 := by
  refine alongB_mem _ _ (fun n x hx hb => ?_) leads_checked
  simp only [lightB, Bool.and_eq_true] at hb
  obtain ⟨h1, h2⟩ := hb
  have hw : WeighedInput V lists n x := by
    unfold WeighedInput
    split
    · intro m q hq hm
      simp only [hq] at h2
      cases m with
      | aggregatedVote qc => exact (NetDemo.strongB_sound h2).2
      | signedChoke sc => cases h2
      | richStatus st =>
        have h3 : decide (st.authorityList = lists st.height) = true := h2
        have h4 := of_decide_eq_true h3
        exact h4
      | _ => trivial
    · trivial
  obtain ⟨d, _, rfl⟩ := List.mem_map.1 hx
  have hl : ∀ k c st, (GoodDemo.envG 1).commit k c = some st → st.authorityList = lists st.height := by
    intro k c st hst
    simp only [GoodDemo.envG, envN, Option.some.injEq] at hst
    subst hst; rfl
  have ha : CommitsAnswered (GoodDemo.envG 1) := envN_answers 1 (some none)
  refine ⟨startOkB_sound h1, ?_, ?_, ?_, ?_, hw⟩ <;> clear hw h1 h2
  · cases d <;> first | exact ha | trivial
  · cases d <;> first | (intro b; rfl) | trivial
  · cases d <;> first | exact hl | exact ⟨hl, fun _ => rfl⟩ | trivial
  · cases d <;> first | exact implements [1] | trivial

theorem leads_inTime : NothingEarly [1] leads10 := by
  rintro as1 e cut as2 n m q h0 hr hq hs hh ⟨l1, e', cut', l2, n1, k, h1, _, h2, h3, h4⟩
  have hal : Along (fun n x => ∀ m e cut, x = .arm (.raw m) e cut → m.isRichStatus = false → ∀ k, m.getHeight? = some k → k ≤ n.st.height) [1]
      (NodeSys.new [1]) leads10 := by
    refine alongB_mem _ _ (fun n x hx hb => ?_) leads_checked
    rintro m e cut rfl hm k hk
    simp only [lightB, Bool.and_eq_true, hm, hk, Bool.false_or] at hb
    exact of_decide_eq_true hb.2
  rw [h0, h1, List.append_assoc, List.cons_append] at hal
  have := along_split l1 hal h2 m e' cut' rfl hs k h3
  omega

/-- The leader builds both certificates from votes and commits; an outsider accepts the proof. -/
example : ∃ n, (NodeSys.new [1]).run [1] leads10 = some n ∧ Along (LightStep V lists [1]) [1] (NodeSys.new [1]) leads10 ∧ NothingEarly [1] leads10 ∧
    .broadcast (.aggregatedVote { cert [1, 2, 3] 10 0 .precommit [5] with leader := [1] }) ∈ n.log ∧ committed n = [(10, [5])] := by
  have hd : (match (NodeSys.new [1]).run [1] leads10 with
      | some n => decide (.broadcast (.aggregatedVote { cert [1, 2, 3] 10 0 .precommit [5] with leader := [1] }) ∈ n.log ∧ committed n = [(10, [5])])
      | none => false) = true := by decide +kernel
  split at hd
  · rename_i n hn
    exact ⟨n, hn, leads_ok, leads_inTime, of_decide_eq_true hd⟩
  · cases hd

/-- The proof that the validators 2 to 5 signed. -/
def proof9 : Proof := { height := 9, round := 0, blockHash := [5], signature := ⟨[], (Q 0 .precommit [5]).signature.addressBitmap⟩ }

/-- The hypotheses of C62_no_conflicting_proofs_partial, after two correct nodes have precommitted and committed. -/
def bothLock : List (UInt8 × List D) := [(2, lock9), (1, lock9), (1, commit9)]

example : ∃ N, NetSys.new.run (ideally bothLock) = some N ∧ SignedSchedule lists correct (ideally bothLock) ∧ NoneEarly correct (ideally bothLock) ∧
    KeepsLocks lists correct (ideally bothLock) ∧ committed (N.nodes [1]) = [(9, [5])] ∧
    Unforgeable correct N.votes (Sign.ideal correct N.votes) ∧ LightAccepts (Sign.ideal correct N.votes) (lists proof9.height) proof9 := by
  have hd : (match NetSys.new.run (ideally bothLock) with
      | some N => decide (committed (N.nodes [1]) = [(9, [5])]) &&
        (match extractVoters (lists proof9.height) proof9.signature.addressBitmap with
        | .ok voters => decide (2 * total (lists proof9.height) < 3 * weight (lists proof9.height) (fun a => decide (a ∈ voters)) ∧
            (Sign.ideal correct N.votes).verifyAgg proof9.signature.signature ((Sign.ideal correct N.votes).hash (encVote ⟨9, 0, .precommit, [5]⟩)) voters = true)
        | .error _ => false)
      | none => false) = true := by decide +kernel
  have hs : alongNetB signedB NetSys.new (ideally bothLock) = true := by decide +kernel
  split at hd
  · rename_i N hN
    rw [Bool.and_eq_true] at hd
    obtain ⟨h1, h2⟩ := hd
    refine ⟨N, hN, signedB_sound hs, signedB_inTime hs, keepsB_sound (by decide +kernel), of_decide_eq_true h1, Sign.ideal_unforgeable _ _, by decide, ?_⟩
    split at h2
    · rename_i voters hv
      exact ⟨voters, hv, of_decide_eq_true h2⟩
    · cases h2
  · cases hd

/-- **C62 is false** if a node is sent a certificate below the threshold: validator 1 commits on the word of validator 3 alone, and no outsider accepts the
proof. -/
theorem C62_false_for_weak_certificates : ∃ N c r, NetSys.new.run (sched weakly) = some N ∧ .commitCall 9 c r ∈ (N.nodes [1]).log ∧
    (∀ a : UInt8, Implements V [a] (envN a (some none)).crypto) ∧ ¬ LightAccepts V (lists 9) c.proof := by
  have hd : (match NetSys.new.run (sched weakly) with
      | some N => (commitsAt (N.nodes [1]).log).any fun x => x.1 == 9 && (match extractVoters (lists 9) x.2.proof.signature.addressBitmap with
        | .ok voters => !decide (2 * total (lists 9) < 3 * weight (lists 9) (fun a => decide (a ∈ voters)))
        | .error _ => true)
      | none => false) = true := by decide +kernel
  split at hd
  · rename_i N hN
    obtain ⟨x, hx, hb⟩ := List.any_eq_true.1 hd
    rw [Bool.and_eq_true] at hb
    obtain ⟨h1, h2⟩ := hb
    obtain ⟨y, hy, hz⟩ := List.mem_filterMap.1 hx
    cases y <;> simp at hz
    subst hz
    have h1 := eq_of_beq h1
    dsimp only at h1
    subst h1
    refine ⟨N, _, _, hN, hy, fun a => implements [a], ?_⟩
    rintro ⟨_, voters, h3, h4, _⟩
    simp only [h3, Bool.not_eq_true', decide_eq_false_iff_not] at h2
    exact h2 h4
  · cases hd

end LightDemo
end Overlord
