import Verif.Proofs.Progress5
import Verif.Proofs.ProgressDemo

/-!
# Progress of rounds (C54)

A round in which the live validators all stand does not last for ever: it ends with a commit, a later height or a later round of some of
them.
-/

set_option linter.unusedSectionVars false

namespace Overlord
open Spec

variable {T : Type} [ContentCodec T] [DecidableEq T]

/-- **C54 (partial).** In every infinite history in which more than two thirds of the validators of height `k` are live from moment `n` on (they
stay up, their tasks go on, and the chokes they broadcast arrive among them) and all stand in the same round `r` of height `k`, some live
validator asks for the commit of a block, reaches a later height, or enters a later round. No assumption on timing, on other messages, on what
faulty validators send, or on the locks.

Missing: the same for validators that stand in different rounds of the height. That is false, see `C54_false_rounds_apart`. -/
theorem C54_round_ends_partial (henc : Encodes T) {f : Hash → Nat × T} {lists : Nat → List Node} {correct live : Address → Bool} {mode : LeaderMode}
    {leader : Nat → Nat → Address} (hgl : GoodLists lists) (hfew : FewFaulty lists correct) (hlead : LeadersExist lists mode leader)
    (σ : NetRun T) (hok : σ.Ok f lists correct mode) (hlive : ∀ a, live a = true → correct a = true) (n k r : Nat)
    (hmany : 2 * (lists k).length < 3 * ((lists k).filter fun v => live v.address).length)
    (hserved : ∀ a, live a = true → Served σ n a) (hchokes : ChokesArrive σ n live)
    (hround : ∀ a, live a = true → InRound k r (σ.node n a)) :
    ∃ m a, n ≤ m ∧ live a = true ∧ Advanced σ n m a k r := by
  refine Classical.byContradiction fun hno => ?_
  refine Pace.Halted.ends (r := r) (f := f) (correct := correct) (mode := mode) (leader := leader) hchokes hmany fun b hb => ?_
  exact ⟨henc, hgl, hfew, hlead, hok, hlive b hb, hserved b hb, hround b hb, fun m hm h => hno ⟨m, b, hm, hb, h⟩⟩

/-- **C54 (partial).** Two live validators stand in different rounds of a height, and the one in the higher round is not there because of a prevote
certificate (it does not send chokes with that reason). Then one of them asks for the commit of a block, reaches a later height, or enters a later
round: the choke of the one brings the other forward. No quorum is needed. -/
theorem C54_stragglers_catch_up_partial (henc : Encodes T) {f : Hash → Nat × T} {lists : Nat → List Node} {correct : Address → Bool} {mode : LeaderMode}
    {leader : Nat → Nat → Address} (hgl : GoodLists lists) (hfew : FewFaulty lists correct) (hlead : LeadersExist lists mode leader)
    (σ : NetRun T) (hok : σ.Ok f lists correct mode) (n k : Nat) (a b : Address) (ha : correct a = true) (hb : correct b = true) (ra rb : Nat) (hr : ra < rb)
    (hsa : Served σ n a) (hsb : Served σ n b) (hchokes : ChokesArrive σ n fun c => c == a || c == b)
    (hra : InRound k ra (σ.node n a)) (hrb : InRound k rb (σ.node n b))
    (hreason : ∀ m sc qc, n ≤ m → σ.Broadcasts m b (.signedChoke sc) → sc.choke.from ≠ .prevoteQC qc) :
    ∃ m, n ≤ m ∧ (Advanced σ n m a k ra ∨ Advanced σ n m b k rb) := by
  refine Classical.byContradiction fun hno => ?_
  have h1 : Pace.Halted f lists correct mode leader σ n a k ra :=
    ⟨henc, hgl, hfew, hlead, hok, ha, hsa, hra, fun m hm h => hno ⟨m, hm, .inl h⟩⟩
  have h2 : Pace.Halted f lists correct mode leader σ n b k rb :=
    ⟨henc, hgl, hfew, hlead, hok, hb, hsb, hrb, fun m hm h => hno ⟨m, hm, .inr h⟩⟩
  exact h1.catch_up (by simp) (by simp) hchokes h2 hr hreason

/-- **C54 (partial).** As `C54_round_ends_partial`, for live validators that stand in different rounds `r a` of height `k`, if only those in the lowest
of these rounds send chokes whose reason is a prevote certificate. By `C54_false_rounds_apart` this is needed. -/
theorem C54_rounds_apart_partial (henc : Encodes T) {f : Hash → Nat × T} {lists : Nat → List Node} {correct live : Address → Bool} {mode : LeaderMode}
    {leader : Nat → Nat → Address} (hgl : GoodLists lists) (hfew : FewFaulty lists correct) (hlead : LeadersExist lists mode leader)
    (σ : NetRun T) (hok : σ.Ok f lists correct mode) (hlive : ∀ a, live a = true → correct a = true) (n k : Nat) (r : Address → Nat)
    (hmany : 2 * (lists k).length < 3 * ((lists k).filter fun v => live v.address).length)
    (hserved : ∀ a, live a = true → Served σ n a) (hchokes : ChokesArrive σ n live)
    (hround : ∀ a, live a = true → InRound k (r a) (σ.node n a))
    (hreason : ∀ m a sc qc, n ≤ m → live a = true → σ.Broadcasts m a (.signedChoke sc) → sc.choke.from = .prevoteQC qc →
      ∀ b, live b = true → r a ≤ r b) :
    ∃ m a, n ≤ m ∧ live a = true ∧ Advanced σ n m a k (r a) := by
  refine Classical.byContradiction fun hno => ?_
  have hall : ∀ b, live b = true → Pace.Halted f lists correct mode leader σ n b k (r b) := fun b hb =>
    ⟨henc, hgl, hfew, hlead, hok, hlive b hb, hserved b hb, hround b hb, fun m hm h => hno ⟨m, b, hm, hb, h⟩⟩
  have hmin : ∀ d b, r b ≤ d → live b = true → ∃ b, live b = true ∧ ∀ c, live c = true → r b ≤ r c := by
    intro d
    induction d with
    | zero => intro b h1 h2; exact ⟨b, h2, fun c _ => by omega⟩
    | succ d ih =>
      intro b h1 h2
      by_cases hx : ∃ c, live c = true ∧ r c < r b
      · obtain ⟨c, g1, g2⟩ := hx
        exact ih c (by omega) g1
      · exact ⟨b, h2, fun c hc => Nat.le_of_not_lt fun hlt => hx ⟨c, hc, hlt⟩⟩
  have hne : ∃ b, live b = true := by
    cases hl : (lists k).filter fun v => live v.address with
    | nil => rw [hl] at hmany; simp at hmany
    | cons v vs => exact ⟨_, (List.mem_filter.1 (show v ∈ (lists k).filter fun v => live v.address by rw [hl]; exact List.mem_cons_self ..)).2⟩
  obtain ⟨b0, hb0⟩ := hne
  obtain ⟨b, hb, hlow⟩ := hmin _ b0 (Nat.le_refl _) hb0
  by_cases hx : ∃ c, live c = true ∧ r b < r c
  · obtain ⟨c, hc, hlt⟩ := hx
    refine (hall b hb).catch_up hb hc hchokes (hall c hc) hlt fun m sc qc hm hs hf => ?_
    have := hreason m c sc qc hm hc hs hf b hb
    omega
  · refine Pace.Halted.ends (r := r b) (f := f) (correct := correct) (mode := mode) (leader := leader) hchokes hmany fun c hc => ?_
    have : r c = r b := Nat.le_antisymm (Nat.le_of_not_lt fun hlt => hx ⟨c, hc, hlt⟩) (hlow c hc)
    rw [← this]
    exact hall c hc

namespace PaceDemo

theorem encodes : Encodes C := fun _ => rfl

/-- C54: four validators, of which 1, 2 and 4 are live from the moment on at which they have all prevoted in round 0 of height 10. -/
example : ∃ m a, boot.length ≤ m ∧ live a = true ∧ Advanced σ boot.length m a 10 0 :=
  C54_round_ends_partial encodes goodLists fewFaulty leadersExist σ ok (fun _ _ => rfl) boot.length 10 0 many
    (fun _ ha => Lasso.served _ (serves ha) boot_le) (Lasso.arrive _ delivers boot_le) (fun _ ha => inRound0 ha)

/-- **C54 is false for validators in different rounds.** Four validators of equal weight, none is faulty, one crashes. The three others stay up,
their tasks go on, and from moment `n0` on, when they all stand in round 0 of height 10, every message between them arrives. From moment `n` on
they stand in the rounds 1, 2 and 1 for ever, and no block of the height is ever committed: a prevote certificate of round 1 made validator 2 jump
from round 0 to round 2, where it waits for chokes of round 2; the others stay in round 1 and wait for chokes of round 1. -/
theorem C54_false_rounds_apart : ∃ (σ : NetRun C) (n0 n : Nat), n0 ≤ n ∧ GoodLists lists ∧ LeadersExist lists .rotation leaderP ∧
    σ.Ok blockOf lists (fun _ => true) .rotation ∧
    2 * (lists 10).length < 3 * ((lists 10).filter fun v => live v.address).length ∧
    (∀ a, live a = true → Served σ n0 a) ∧ ChokesArrive σ n0 live ∧
    (∀ m a b x, n0 ≤ m → live a = true → live b = true → a ≠ b → SentTo (σ.st m) (σ.st (m + 1)) a b x →
      ∃ j e, m < j ∧ σ.act j = some (b, .arm (.raw x) e none)) ∧
    (∀ a, live a = true → InRound 10 0 (σ.node n0 a)) ∧
    ∀ m a, n ≤ m → live a = true → InRound 10 (roundOf a) (σ.node m a) ∧ (σ.node m a).st.round = roundOf a ∧
      ∀ k c res, .commitCall k c res ∉ doneSince (σ.st n) (σ.st m) a :=
  ⟨σ, boot.length, pre.length, boot_le, goodLists, leadersExist, ok, many, fun _ ha => Lasso.served _ (serves ha) boot_le,
    Lasso.arrive _ delivers boot_le, fun _ _ _ _ hm ha hb hab hs => Lasso.all_arrive _ delivers boot_le hm ha hb hab hs, fun _ ha => inRound0 ha,
    fun m _ hm ha => ⟨(stuck ha m hm).1, (stuck ha m hm).2, fun k c res => noCommits ha m hm k c res⟩⟩

/-! Non-vacuity of the theorems for validators in different rounds: the same history, at the moment at which validators 4 and 1 have entered round 1
and validator 2 has not. -/

/-- The steps up to that moment. -/
def apart : List (UInt8 × E) := boot ++ rest.take 92

theorem log_sub (σ : NetRun C) (a : Address) {m : Nat} {x : Effect C} (hx : x ∈ (σ.node m a).log) : ∀ d, x ∈ (σ.node (m + d) a).log := by
  intro d
  induction d with
  | zero => exact hx
  | succ d ih =>
    rw [← Nat.add_assoc]
    rcases Pace.node_step σ (m + d) a with ⟨y, _, k2⟩ | ⟨_, k2⟩
    · obtain ⟨l, hl⟩ := act_grows k2
      rw [hl]; exact List.mem_append_left _ ih
    · rw [k2]; exact ih

def noPrevoteB (l : List (Effect C)) : Bool :=
  l.all fun
    | .broadcast (.signedChoke sc) => (match sc.choke.from with
      | .prevoteQC _ => false
      | _ => true)
    | _ => true

def roundAt (a : Address) : Nat := if a = [2] then 0 else 1

def apartB (N : NetSys C) : Bool :=
  liveList.all fun a => decide ((N.nodes [a]).st.consensusPower = true ∧ (N.nodes [a]).st.height = 10 ∧
    (N.nodes [a]).sys.smr.height = 10 ∧ (N.nodes [a]).sys.smr.round = roundAt [a] ∧ (N.nodes [a]).sys.smr.step ≠ .commit)

theorem apart_checked : (match NetSys.new.run (apart.map toAct) with
    | some N => apartB N
    | none => false) = true ∧
    (match NetSys.new.run ((boot ++ rest ++ cycle).map toAct) with
    | some N => noPrevoteB (N.nodes [1]).log && noPrevoteB (N.nodes [4]).log
    | none => false) = true := by decide +kernel

theorem apart_len : boot.length ≤ apart.length ∧ apart.length ≤ pre.length := by
  rw [pre_len]
  unfold apart
  rw [List.length_append, List.length_take]
  omega

theorem bc {σ : NetRun C} {m : Nat} {a : Address} {x : OverlordMsg C} (h : σ.Broadcasts m a x) : .broadcast x ∈ doneSince (σ.st m) (σ.st (m + 1)) a := h

theorem st_eq (m : Nat) : σ.st m = Lasso.stAt pre cyc m := rfl

theorem reasons {a : Address} (ha : a = [1] ∨ a = [4]) (m : Nat) (sc : SignedChoke) (qc : AggregatedVote)
    (h : σ.Broadcasts m a (.signedChoke sc)) : sc.choke.from ≠ .prevoteQC qc := by
  obtain ⟨n, h1, h2, _⟩ := Lasso.shifted lasso_ok m
  have hd := h2.done 0 a
  simp only [Nat.add_zero] at hd
  have h := bc h
  rw [st_eq, st_eq] at h
  rw [← hd] at h
  have hx := List.mem_of_mem_drop h
  rw [← node_eq] at hx
  have hx := log_sub σ a hx (pre.length + cyc.length - (n + 1))
  rw [show n + 1 + (pre.length + cyc.length - (n + 1)) = pre.length + cyc.length by omega] at hx
  obtain ⟨_, _, N1, _, _, hN, _⟩ := runs
  have e2 : Lasso.stAt pre cyc (pre.length + cyc.length) = N1 := by
    have := (Lasso.run_take hN (pre.length + cyc.length) (by omega)).1
    rw [List.take_of_length_le (by simp), hN] at this
    exact (Option.some.inj this).symm
  rw [node_eq, e2] at hx
  have hc := apart_checked.2
  rw [← full, hN, Bool.and_eq_true] at hc
  have hc : noPrevoteB (N1.nodes a).log = true := by
    rcases ha with rfl | rfl
    · exact hc.1
    · exact hc.2
  intro hf
  have := List.all_eq_true.1 hc _ hx
  simp [hf] at this

theorem take_apart {α : Type} (b r c : List α) (k : Nat) : (b ++ r ++ c).take (b ++ r.take k).length = b ++ r.take k := by
  have : b ++ r ++ c = (b ++ r.take k) ++ (r.drop k ++ c) := by
    conv => lhs; rw [← List.take_append_drop k r]
    simp only [List.append_assoc]
  rw [this]
  exact List.take_left

theorem apart_rounds (n : Nat) (hn : n = apart.length) {a : Address} (h : live a = true) : InRound 10 (roundAt a) (σ.node n a) := by
  obtain ⟨_, _, N1, _, _, hN, _⟩ := runs
  have hr := apart_checked.1
  split at hr
  · rename_i N hA
    have e0 : Lasso.stAt pre cyc n = N := by
      have := (Lasso.run_take hN n (by have := apart_len; omega)).1
      have ht : (pre ++ cyc).take n = apart.map toAct := by
        rw [full, ← List.map_take, hn]
        exact congrArg _ (take_apart boot rest cycle 92)
      rw [ht, hA] at this
      exact (Option.some.inj this).symm
    obtain ⟨b, hb, rfl⟩ := live_mem h
    obtain ⟨k1, k2, k3, k4, k5⟩ := of_decide_eq_true (List.all_eq_true.1 hr b hb)
    rw [node_eq, e0]
    exact ⟨k1, k2, k3, k4, k5⟩
  · cases hr

theorem served_later {σ : NetRun C} {n n' : Nat} {a : Address} (hn : n ≤ n') (h : Served σ n a) : Served σ n' a :=
  ⟨fun m hm => h.up m (by omega), fun m hm => h.smr m (by omega), fun m hm => h.set m (by omega), fun m x hm => h.expire m x (by omega),
   fun m x hm => h.fire m x (by omega), fun m hm => h.event m (by omega), fun m hm => h.verified m (by omega), fun m x hm => h.verify m x (by omega),
   fun m b e c hm => h.works m b e c (by omega), fun m r hm => h.rounds m r (by omega)⟩

theorem arrive_later {σ : NetRun C} {n n' : Nat} {l l' : Address → Bool} (hn : n ≤ n') (hl : ∀ a, l' a = true → l a = true) (h : ChokesArrive σ n l) :
    ChokesArrive σ n' l' :=
  ⟨fun m a b sc hm ha hb => h.delivered m a b sc (by omega) (hl a ha) (hl b hb),
   fun m m' a b sc au c i hm hm' ha hb => h.pass m m' a b sc au c i (by omega) hm' (hl a ha) (hl b hb)⟩

theorem serves0 {a : Address} (h : live a = true) : Served σ boot.length a := Lasso.served _ (serves h) boot_le

theorem arrive0 : ChokesArrive σ boot.length live := Lasso.arrive _ delivers boot_le

/-- C54: the validators 1, 2 and 4 stand in the rounds 1, 0 and 1. -/
example : ∃ n, ∃ m a, n ≤ m ∧ live a = true ∧ Advanced σ n m a 10 (roundAt a) := by
  obtain ⟨n, hn⟩ : ∃ n, n = apart.length := ⟨_, rfl⟩
  have hb : boot.length ≤ n := by have := apart_len; omega
  refine ⟨n, C54_rounds_apart_partial encodes goodLists fewFaulty leadersExist σ ok (fun _ _ => rfl) n 10 roundAt many
    (fun _ ha => served_later hb (serves0 ha)) (arrive_later hb (fun _ h => h) arrive0)
    (fun _ ha => apart_rounds n hn ha) ?_⟩
  intro m a sc qc _ ha hs hf b _
  obtain ⟨c, hc, rfl⟩ := live_mem ha
  simp only [liveList, List.mem_cons, List.not_mem_nil, or_false] at hc
  rcases hc with rfl | rfl | rfl
  · exact absurd hf (reasons (.inl rfl) m sc qc hs)
  · simp [roundAt]
  · exact absurd hf (reasons (.inr rfl) m sc qc hs)

/-- C54: validator 2 in round 0 and validator 4 in round 1. -/
example : ∃ n, ∃ m, n ≤ m ∧ (Advanced σ n m [2] 10 0 ∨ Advanced σ n m [4] 10 1) := by
  obtain ⟨n, hn⟩ : ∃ n, n = apart.length := ⟨_, rfl⟩
  have hb : boot.length ≤ n := by have := apart_len; omega
  refine ⟨n, C54_stragglers_catch_up_partial encodes goodLists fewFaulty leadersExist σ ok n 10 [2] [4] rfl rfl 0 1 (by omega)
    (served_later hb (serves0 rfl)) (served_later hb (serves0 rfl))
    (arrive_later hb (fun a h => ?_) arrive0) (apart_rounds n hn (a := [2]) rfl) (apart_rounds n hn (a := [4]) rfl)
    fun m sc qc _ hs => reasons (.inr rfl) m sc qc hs⟩
  simp only [Bool.or_eq_true, beq_iff_eq] at h
  rcases h with rfl | rfl <;> rfl

end PaceDemo

end Overlord
