import Verif.Proofs.Chain5
import Verif.Proofs.GoodDemo

/-! Three heights in a row, for the example beside C65. -/

set_option linter.unusedSectionVars false
set_option linter.unusedVariables false

namespace Overlord.ChainDemo
open Spec NetDemo GoodDemo

/-- Validator 5 leaves after height 10, validator 4 after height 12. -/
def list (h : Nat) : List Node :=
  if h ≤ 10 then nodes else if h ≤ 12 then [⟨[1], 1, 2⟩, ⟨[2], 1, 4⟩, ⟨[3], 1, 1⟩, ⟨[4], 1, 1⟩] else [⟨[1], 1, 2⟩, ⟨[2], 1, 4⟩, ⟨[3], 1, 1⟩]

def blockAt (h : Nat) : C := List.replicate (h - 9) 6
def hashAt (h : Nat) : Hash := List.replicate (h - 9) 5

def envC (a : UInt8) : Env C :=
  { envN a (some none) with
    getBlock := fun h => some (blockAt h, hashAt h)
    commit := fun h _ => some { height := h + 1, interval := none, timerConfig := none, authorityList := list (h + 1) } }

def toC (a : UInt8) : D → NAct C
  | .raw m => .arm (.raw m) (envC a) none
  | .event cut => .arm .event (envC a) cut
  | .resp => .arm .resp (envC a) none
  | .verified => .arm .verified (envC a) none
  | .start w => .start params (envC a) none
  | d => d.to a

def schedC (l : List (UInt8 × List D)) : List (Address × NAct C) := l.flatMap fun y => y.2.map fun d => ([y.1], toC y.1 d)

/-- Heights 10, 11, 12, …; the leaders of the first four are 1, 2, 1 and 3. -/
def plan (k : Nat) : GoodRound C :=
  { height := k + 10, round := 0, list := list (k + 10), mode := .rotation, live := fun a => [[1], [2], [3]].contains a,
    leader := if k = 1 then [2] else if k = 3 then [3] else [1], block := blockAt (k + 10), hash := hashAt (k + 10), lock := none }

def cert (voters : List UInt8) (h : Nat) (ty : VoteType) : OverlordMsg C :=
  .aggregatedVote
    { signature := ⟨voters.flatMap (fun a => a :: encVote ⟨h, 0, ty, hashAt h⟩),
        (Authority.update (list h)).bitmapOf (voters.map fun a => [a])⟩,
      voteType := ty, height := h, round := 0, blockHash := hashAt h,
      leader := ((Authority.update (list h)).getProposer .rotation h 0).toOption.getD [] }
def proposal (p : UInt8) (h : Nat) : OverlordMsg C := .signedProposal (prop p h 0 (blockAt h) (hashAt h) none)
def vote (a : UInt8) (h : Nat) (ty : VoteType) : OverlordMsg C := .signedVote (StDemo.vote a h 0 ty (hashAt h))

/-- Validator 1 leads height 10, 2 leads height 11. Validators 1 and 2 decide height 11 while 3 is still at height 10. -/
def first : List (UInt8 × List D) :=
  [(1, [.event none, .cdone, .resp, .smr, .event none])] ++
  ([2, 3].map fun a => (a, [.event none] ++ dl (proposal 1 10) ++ [.smr, .event none, .cdone, .resp])) ++
  [(1, dl (vote 2 10 .prevote) ++ dl (vote 3 10 .prevote) ++ [.smr, .event none])] ++
  ([2, 3].map fun a => (a, dl (cert [1, 2, 3] 10 .prevote) ++ [.smr, .event none])) ++
  [(1, dl (vote 2 10 .precommit) ++ dl (vote 3 10 .precommit) ++ [.smr, .event none] ++ [.smr, .event none])] ++
  [(2, dl (cert [1, 2, 3] 10 .precommit) ++ [.smr, .event none] ++ [.smr, .event none, .cdone, .resp, .smr, .event none])] ++
  [(1, dl (proposal 2 11) ++ [.smr, .event none, .cdone, .resp])] ++
  [(2, dl (vote 1 11 .prevote) ++ [.smr, .event none])] ++
  [(1, dl (cert [1, 2] 11 .prevote) ++ [.smr, .event none])] ++
  [(2, dl (vote 1 11 .precommit) ++ [.smr, .event none])] ++
  [(1, dl (cert [1, 2] 11 .precommit) ++ [.smr, .event none])]

/-- A prevote certificate of height 11 and one of height 12 reach validator 3 while it is at height 10, the proposal of height 12 when it is at height 11; it keeps
them until it needs them. A vote of validator 4 (which is faulty) for height 12 also arrives early. The vote of 3 in height 11 comes too late. -/
def run : List (UInt8 × List D) :=
  first ++
  [(1, [.smr, .event none, .cdone, .resp, .smr, .event none])] ++
  [(2, [.smr, .event none] ++ dl (proposal 1 12) ++ [.smr, .event none, .cdone, .resp])] ++
  [(1, dl (vote 2 12 .prevote) ++ [.smr, .event none])] ++
  [(3, [.raw (cert [1, 2] 11 .prevote), .raw (cert [1, 2] 12 .prevote), .verified, .verified] ++
    dl (cert [1, 2, 3] 10 .precommit) ++ [.smr, .event none, .vdone] ++ [.smr, .event none, .verified] ++
    [.raw (proposal 1 12), .raw (vote 4 12 .prevote), .verified] ++ dl (proposal 2 11) ++ [.verified] ++ [.smr, .event none, .cdone, .resp, .smr, .event none])] ++
  [(2, [.raw (vote 3 11 .prevote), .raw (vote 3 11 .precommit)])] ++
  [(3, dl (cert [1, 2] 11 .precommit) ++ [.smr, .event none, .vdone, .vdone, .smr, .event none, .verified, .verified,
    .smr, .event none, .cdone, .resp, .smr, .event none])] ++
  [(1, dl (vote 3 12 .prevote) ++ dl (vote 3 12 .precommit))] ++
  [(2, dl (cert [1, 2] 12 .prevote) ++ [.smr, .event none])] ++
  [(1, dl (vote 2 12 .precommit) ++ [.smr, .event none])] ++
  ([2, 3].map fun a => (a, dl (cert [1, 2, 3] 12 .precommit) ++ [.smr, .event none]))

/-- The same, but the proposal of height 11 reaches validator 3 while it is at height 10. By the list of height 10 another
validator leads height 11, so validator 3 drops the proposal. -/
def early : List (UInt8 × List D) :=
  first ++
  [(3, [.raw (proposal 2 11), .verified] ++ dl (cert [1, 2, 3] 10 .precommit) ++ [.smr, .event none] ++ [.smr, .event none] ++
    dl (cert [1, 2] 11 .prevote) ++ dl (cert [1, 2] 11 .precommit))]

/-! ### Checkers -/

def undisturbedB : NAct C → Bool
  | .arm _ _ cut => cut.isNone
  | .fire _ => false
  | .crash => false
  | .start _ _ _ => false
  | _ => true

theorem undisturbedB_sound {x : NAct C} (h : undisturbedB x = true) : Undisturbed x := by
  cases x <;> simp_all [undisturbedB, Undisturbed]

def foreseenB (i j : Nat) : Bool :=
  match (Authority.update (plan i).list).getProposer (plan i).mode (plan j).height (plan j).round with
  | .ok l => decide (l = (plan j).leader)
  | .error _ => false

theorem foreseenB_sound {i j : Nat} (h : foreseenB i j = true) : Foreseen plan i j := by
  unfold foreseenB at h
  unfold Foreseen
  split at h
  · rename_i l hl
    rw [hl, of_decide_eq_true h]
  · cases h

def faultyB (j : Nat) : OverlordMsg C → Bool
  | .signedVote sv => !(plan j).live sv.voter
  | _ => false

def isProposal : OverlordMsg C → Bool
  | .signedProposal _ => true
  | _ => false

/-- `Timely`, computed. -/
def timelyB (K : Nat) (N0 N : NetSys C) (a : Address) (height : Nat) : NAct C → Bool
  | .arm (.raw m) _ _ => (List.range K).all fun j => !(decide (m.getHeight? = some (plan j).height ∧ height < (plan j).height)) ||
      (faultyB j m || (L.any fun c => (plan j).live c && sentB N0 N c a m) && decide ((plan j).height ≤ height + 4) &&
        (!isProposal m || (List.range j).all fun i => !decide (height ≤ (plan i).height) || foreseenB i j))
  | _ => true

theorem timelyB_sound {K : Nat} {N0 N : NetSys C} {a : Address} {h : Nat} {x : NAct C} (hb : timelyB K N0 N a h x = true) : Timely plan K N0 N a h x := by
  unfold Timely
  split
  · rename_i m e cut
    intro j hj h1 h2
    have := List.all_eq_true.1 hb j (List.mem_range.2 hj)
    simp only [h1, h2, and_self, decide_true, Bool.not_true, Bool.false_or, Bool.or_eq_true, Bool.and_eq_true, decide_eq_true_eq] at this
    rcases this with this | ⟨⟨h3, h4⟩, h5⟩
    · left
      cases m with
      | signedVote sv => exact ⟨sv, rfl, by simpa [faultyB] using this⟩
      | _ => cases this
    · right
      obtain ⟨c, _, h6⟩ := List.any_eq_true.1 h3
      rw [Bool.and_eq_true] at h6
      refine ⟨⟨c, h6.1, sentB_iff.1 h6.2⟩, h4, ?_⟩
      rintro ⟨sp, rfl⟩ i hi hle
      rcases h5 with h5 | h5
      · cases h5
      · have h7 := List.all_eq_true.1 h5 i (List.mem_range.2 hi)
        simp only [hle, decide_true, Bool.not_true, Bool.false_or] at h7
        exact foreseenB_sound h7
  · trivial

/-- `ChainStep`, computed, without what the environment answers. -/
def stepB (N0 N : NetSys C) (a : Address) (x : NAct C) : Bool :=
  undisturbedB x && (List.range 3).all fun k => !decide ((N.nodes a).st.height = k + 10) || (goodStepB (plan k) L N0 N a x && timelyB 3 N0 N a (k + 10) x)

theorem plan_live (k : Nat) : ∀ a, (plan k).live a = true → a ∈ L := by
  intro a ha
  simpa [plan, L] using ha

theorem leads (l : List Node) (n k : Nat) (hl : (Authority.update l).address.length = n) (h0 : 0 < n) (h1 : n < U32) :
    ∃ a, (Authority.update l).getProposer .rotation (k + 1) INIT_ROUND = .ok a := by
  cases hg : (Authority.update l).getProposer .rotation (k + 1) INIT_ROUND with
  | ok a => exact ⟨a, rfl⟩
  | error x =>
    exfalso
    have h4 : n % U32 = n := Nat.mod_eq_of_lt h1
    simp only [Authority.getProposer, rotationLeaderIndex, hl, h4] at hg
    split at hg
    · omega
    · simp only [bind, Except.bind] at hg
      split at hg
      · cases hg
      · rename_i hn
        rw [List.getElem?_eq_none_iff, hl] at hn
        have := Nat.mod_lt (((k + 1) * leaderStride n + INIT_ROUND) % U64) h0
        omega

theorem envC_answers (a : UInt8) : CommitsAnswered (envC a) := by
  intro k c st h
  simp only [envC, Option.some.injEq] at h
  subst h
  refine ⟨Nat.lt_succ_self k, ?_⟩
  show ∃ l, (Authority.update (list (k + 1))).getProposer .rotation (k + 1) INIT_ROUND = .ok l
  unfold list
  split
  · exact leads nodes 5 k (by decide +kernel) (by decide) (by decide)
  · split
    · exact leads _ 4 k (by decide +kernel) (by decide) (by decide)
    · exact leads _ 3 k (by decide +kernel) (by decide) (by decide)

theorem envC_good (a : UInt8) (k : Nat) : GoodEnv (plan k) (envC a) where
  mode := rfl
  saves := fun _ => rfl
  signs := fun _ => rfl
  aggregates := fun _ _ => rfl
  block := fun _ => rfl
  answers := envC_answers a

theorem mem_schedC {l : List (UInt8 × List D)} {y : Address × NAct C} (h : y ∈ schedC l) : ∃ a d, y = ([a], toC a d) := by
  simp only [schedC, List.mem_flatMap, List.mem_map] at h
  obtain ⟨z, _, d, _, rfl⟩ := h
  exact ⟨_, _, rfl⟩

theorem envOk_C (a : UInt8) (d : D) (k : Nat) : envOk (plan k) (toC a d) := by
  cases d <;> first | exact envC_good a k | trivial

theorem advances_C (a : UInt8) (d : D) (k : Nat) : Advances (plan k).height (plan (k + 1)).list (toC a d) := by
  have key : ∀ c, ∃ st, (envC a).commit (plan k).height c = some st ∧ st.height = (plan k).height + 1 ∧ st.authorityList = (plan (k + 1)).list := by
    intro c
    refine ⟨_, rfl, rfl, ?_⟩
    show list (k + 10 + 1) = list (k + 1 + 10)
    rw [Nat.add_right_comm]
  cases d <;> first | exact key | trivial

theorem stepB_sound {N0 N : NetSys C} {a : Address} {u : UInt8} {d : D} (h : stepB N0 N a (toC u d) = true) :
    ChainStep plan 3 N0 N a (toC u d) := by
  simp only [stepB, Bool.and_eq_true, List.all_eq_true, Bool.or_eq_true, Bool.not_eq_true', decide_eq_false_iff_not] at h
  refine ⟨undisturbedB_sound h.1, fun k hk hh => ?_⟩
  have := (h.2 k (List.mem_range.2 hk)).resolve_left (fun h' => h' hh)
  exact ⟨goodStepB_sound (plan_live k) (envOk_C u d k) this.1, timelyB_sound this.2, advances_C u d k⟩

theorem plan_ok (k : Nat) (hk : k ≤ 3) : (plan k).Ok := by
  have : k = 0 ∨ k = 1 ∨ k = 2 ∨ k = 3 := by omega
  have hm : ∀ a, (plan k).live a = true → a = [1] ∨ a = [2] ∨ a = [3] := by
    intro a ha
    simpa [plan] using ha
  rcases this with rfl | rfl | rfl | rfl <;>
  · refine ⟨by simp [Distinct, plan, list, nodes], by simp [Sized, plan, list, nodes], by decide +kernel, by decide +kernel, by decide +kernel, ?_,
      by decide +kernel, by decide +kernel, by decide +kernel, by decide +kernel⟩
    intro a ha
    rcases hm a ha with rfl | rfl | rfl <;> decide +kernel

theorem plan_plan : Plan plan 3 where
  ok := plan_ok
  next := fun k => Nat.add_right_comm k 1 10
  first := fun _ => ⟨rfl, rfl⟩
  live := fun _ => rfl
  fresh := by
    intro j k h
    have := congrArg List.length h
    simp only [plan, hashAt, List.length_replicate] at this
    omega

theorem plan_plan2 : Plan plan 2 := { plan_plan with ok := fun k hk => plan_ok k (by omega) }

def beginsB (K : Nat) (a : Address) (n : NodeSys C) : Bool :=
  readyB (plan 0) a n && (List.range K).all fun k => decide (k = 0) ||
    (n.st.isFullTransaction.get? (plan k).hash).isNone && (n.st.proposals.get (plan k).height (plan k).round).toOption.isNone

theorem beginsB_sound {K : Nat} {a : Address} {n : NodeSys C} (h : beginsB K a n = true) : Begins plan K a n := by
  simp only [beginsB, Bool.and_eq_true, List.all_eq_true, Bool.or_eq_true, decide_eq_true_eq, Option.isNone_iff_eq_none] at h
  refine ⟨readyB_sound h.1, fun k hk hk2 => ?_, fun k hk hk2 sp hsp => ?_⟩
  · exact ((h.2 k (List.mem_range.2 hk2)).resolve_left (by omega)).1
  · have := ((h.2 k (List.mem_range.2 hk2)).resolve_left (by omega)).2
    rw [hsp] at this
    cases this

/-- All that the example needs, computed. -/
def demoB : Bool :=
  match NetSys.new.run (schedC before) with
  | some N0 =>
    L.all (fun a => beginsB 3 a (N0.nodes a)) &&
    alongNetB (fun N a x => !(plan 0).live a || stepB N0 N a x) N0 (schedC run) &&
    match N0.run (schedC run) with
    | some N => (List.range 3).all fun k => deliveredB (plan k) L N0 N (schedC run)
    | none => false
  | none => false

theorem demo : ∃ N0 N, NetSys.new.run (schedC before) = some N0 ∧ (∀ a, (plan 0).live a = true → Begins plan 3 a (N0.nodes a)) ∧
    AlongNet (fun N a x => (plan 0).live a = true → ChainStep plan 3 N0 N a x) N0 (schedC run) ∧ N0.run (schedC run) = some N ∧
    ∀ k, k < 3 → Delivered (plan k) N0 N (schedC run) := by
  have hd : demoB = true := by decide +kernel
  unfold demoB at hd
  split at hd
  · rename_i N0 h0
    simp only [Bool.and_eq_true, List.all_eq_true] at hd
    obtain ⟨⟨h1, h2⟩, h3⟩ := hd
    split at h3
    · rename_i N hN
      refine ⟨N0, N, h0, fun a ha => beginsB_sound (h1 a (plan_live 0 a ha)), ?_, hN, fun k hk => ?_⟩
      · refine alongNetB_sound _ _ (fun N y hy hb ha => ?_) h2
        obtain ⟨a, d, rfl⟩ := mem_schedC hy
        simp only [ha, Bool.not_true, Bool.false_or] at hb
        exact stepB_sound hb
      · exact deliveredB_sound (plan_live k) (List.all_eq_true.1 h3 k (List.mem_range.2 hk))
    · cases h3
  · cases hd

/-! ### A proposal that arrives too early -/

/-- `EarlyChainStep`, computed, without what the environment answers. -/
def earlyStepB (N0 N : NetSys C) (a : Address) (x : NAct C) : Bool :=
  undisturbedB x && [0, 1].all fun k => !decide ((N.nodes a).st.height = k + 10) || goodStepB (plan k) L N0 N a x

theorem earlyStepB_sound {N0 N : NetSys C} {a : Address} {u : UInt8} {d : D} (h : earlyStepB N0 N a (toC u d) = true) :
    EarlyChainStep plan 2 N0 N a (toC u d) := by
  simp only [earlyStepB, Bool.and_eq_true, List.all_eq_true, Bool.or_eq_true, Bool.not_eq_true', decide_eq_false_iff_not] at h
  refine ⟨undisturbedB_sound h.1, fun k hk hh => ?_⟩
  have := (h.2 k (by have : k = 0 ∨ k = 1 := by omega
                     rcases this with rfl | rfl <;> simp)).resolve_left (fun h' => h' hh)
  exact ⟨goodStepB_sound (plan_live k) (envOk_C u d k) this, advances_C u d k⟩

def earlyB : Bool :=
  match NetSys.new.run (schedC before) with
  | some N0 =>
    L.all (fun a => beginsB 2 a (N0.nodes a)) &&
    alongNetB (fun N a x => !(plan 0).live a || earlyStepB N0 N a x) N0 (schedC early) &&
    match N0.run (schedC early) with
    | some N => (deliveredB (plan 0) L N0 N (schedC early) && deliveredB (plan 1) L N0 N (schedC early)) &&
        (commitsAt (doneSince N0 N [3])).all fun x => x.1 != 11
    | none => false
  | none => false

theorem early_demo : ∃ N0 N, NetSys.new.run (schedC before) = some N0 ∧ (∀ a, (plan 0).live a = true → Begins plan 2 a (N0.nodes a)) ∧
    AlongNet (fun N a x => (plan 0).live a = true → EarlyChainStep plan 2 N0 N a x) N0 (schedC early) ∧ N0.run (schedC early) = some N ∧
    (∀ k, k < 2 → Delivered (plan k) N0 N (schedC early)) ∧ ∀ c, (11, c) ∉ commitsAt (doneSince N0 N [3]) := by
  have hd : earlyB = true := by decide +kernel
  unfold earlyB at hd
  split at hd
  · rename_i N0 h0
    simp only [Bool.and_eq_true, List.all_eq_true] at hd
    obtain ⟨⟨h1, h2⟩, h3⟩ := hd
    split at h3
    · rename_i N hN
      simp only [Bool.and_eq_true, List.all_eq_true, bne_iff_ne, ne_eq] at h3
      refine ⟨N0, N, h0, fun a ha => beginsB_sound (h1 a (plan_live 0 a ha)), ?_, hN, fun k hk => ?_,
        fun c hc => h3.2 _ hc rfl⟩
      · refine alongNetB_sound _ _ (fun N y hy hb ha => ?_) h2
        obtain ⟨a, d, rfl⟩ := mem_schedC hy
        simp only [ha, Bool.not_true, Bool.false_or] at hb
        exact earlyStepB_sound hb
      · have : k = 0 ∨ k = 1 := by omega
        rcases this with rfl | rfl
        · exact deliveredB_sound (plan_live 0) h3.1.1
        · exact deliveredB_sound (plan_live 1) h3.1.2
    · cases h3
  · cases hd

end Overlord.ChainDemo
