import Verif.Props.Leave
import Verif.Proofs.Certs2

/-!
# C78 in any company

The same, whatever else the node takes up meanwhile and with its own chokes counted in.
-/

set_option linter.unusedSectionVars false
set_option linter.unusedSimpArgs false

namespace Overlord
open M Spec

variable {T : Type} [ContentCodec T] [DecidableEq T]

namespace Leave

/-- Nothing of the chokes changes and no order to leave is given while the height stays. -/
def Calm (s : State T) (w : World T) : Prop :=
  s.height ≤ w.st.height ∧ (w.st.height = s.height → w.st.chokes = s.chokes ∧ leaveOrders w.log = [])

theorem leave_nil {f : List (Effect T)} (h : ∀ t, .trigger t ∈ f → t.triggerType ≠ .continueRound) : leaveOrders f = [] := by
  unfold leaveOrders triggers
  rw [List.filter_eq_nil_iff]
  intro t ht
  rw [List.mem_filterMap] at ht
  obtain ⟨x, hx, hxt⟩ := ht
  cases x <;> simp at hxt
  subst hxt
  simpa using h _ hx

theorem toTrigger_ne (ty : VoteType) : ty.toTrigger ≠ .continueRound := by cases ty <;> decide

theorem calm {e : Env T} {i : Input T} {s : State T} (hst : i ≠ .start) (hb : ∀ h r lr, i ≠ .event (.brake h r lr))
    (hc : ∀ sc, i ≠ .verified (.signedChoke sc)) : Calm s (runArm i e ⟨s, []⟩).2 := by
  refine arm_inv (P := fun w => Calm s w) ⟨Nat.le_refl _, fun _ => ⟨rfl, rfl⟩⟩ fun w eff s' hp hm => ?_
  obtain ⟨h1, h2⟩ := hp
  have key : s'.height = w.st.height → s'.chokes = w.st.chokes → leaveOrders eff = [] → Calm s ⟨s', w.log ++ eff⟩ := by
    intro a b c
    refine ⟨by show s.height ≤ s'.height; omega, fun h => ?_⟩
    have := h2 (by rw [← a]; exact h)
    exact ⟨b.trans this.1, by rw [leaveOrders_append, this.2, c]; rfl⟩
  cases hm with
  | recvChoke sc hi => exact absurd hi (hc _)
  | recvChokeQc ac hi => obtain ⟨sc, hi, _⟩ := hi; exact absurd hi (hc _)
  | ownChoke sc hi =>
    rcases hi with ⟨h, r, lr, hi, _⟩ | hi
    · exact absurd hi (hb _ _ _)
    · exact absurd hi hst
  | chokeQuorum _ _ _ hi =>
    rcases hi with ⟨sc, hi⟩ | ⟨h, r, lr, hi⟩ | hi
    · exact absurd hi (hc _)
    · exact absurd hi (hb _ _ _)
    · exact absurd hi hst
  | walLost hi => exact absurd hi hst
  | restorePos _ _ hi => exact absurd hi hst
  | restoreLeader _ _ hi => exact absurd hi hst
  | restoreFrom _ _ hi => exact absurd hi hst
  | restoreLock _ _ _ hi => exact absurd hi hst
  | walTrigger _ _ hi => exact absurd hi hst
  | adopt status _ _ hh =>
    have h3 : s.height < (w.st.adopted e.sh status).height := by
      show s.height < status.height
      omega
    exact ⟨Nat.le_of_lt h3, fun h => absurd h (Nat.ne_of_gt h3)⟩
  | move status _ hh =>
    have h3 : s.height < (w.st.moved status).height := by
      show s.height < status.height
      omega
    exact ⟨Nat.le_of_lt h3, fun h => absurd h (Nat.ne_of_gt h3)⟩
  | moveLost status _ _ hh =>
    have h3 : s.height < (w.st.moved status).height := by
      show s.height < status.height
      omega
    exact ⟨Nat.le_of_lt h3, fun h => absurd h (Nat.ne_of_gt h3)⟩
  | _ =>
    refine key rfl rfl (leave_nil fun t ht => ?_)
    first
      | (simp at ht; done)
      | (simp [stTrigger] at ht; subst ht; first | exact toTrigger_ne _ | simp)
      | (split at ht <;> simp at ht; done)

/-- What one input does, if the node stays at its place: `news` is the choke it takes up for the round. -/
structure GStep (s : State T) (news : List Address) (w : World T) : Prop where
  ok : ChokesOk w.st.chokes
  out : news = [] → w.st.chokes.chokes = s.chokes.chokes ∧ leaveOrders w.log = []
  inn : ∀ a, news = [a] → (∃ sc : SignedChoke, sc.address = a ∧ w.st.chokes.chokes = (s.chokes.insert s.round sc).chokes) ∧
    (∀ R, TopChokeRound w.st R → leaveOrders w.log = [leaveOrder s.height R]) ∧
    ((∀ R, ¬ TopChokeRound w.st R) → leaveOrders w.log = [])

/-- The own choke. -/
theorem brake {e : Env T} {s : State T} (hok : ChokesOk s.chokes) (lr : Option Nat)
    (hc : ∀ sigs voters, e.crypto.aggregate sigs voters ≠ none)
    (hb : ∃ sc, .broadcast (.signedChoke sc) ∈ effects e (.event (.brake s.height s.round lr)) s) :
    GStep s [s.address] (runArm (.event (.brake s.height s.round lr)) e ⟨s, []⟩).2 := by
  let P : World T → Prop := fun w => (∃ sc, .broadcast (.signedChoke sc) ∈ w.log) → GStep s [s.address] w
  have : wp (runArm (.event (.brake s.height s.round lr))) e ⟨s, []⟩ (fun _ w => P w) (fun _ w => P w) := by
    have none : ∀ s : State T, P ⟨s, []⟩ := by rintro s ⟨_, h⟩; simp at h
    unfold runArm handleEvent handleBrake
    wps [broadcast]
    refine ⟨fun _ => none _, fun _ => ⟨fun _ => none _, fun _ => ⟨fun _ => none _, fun _ => ⟨fun h1 => absurd rfl h1,
      fun _ => ⟨fun sig hsig => ?_, fun _ => by simp [none]⟩⟩⟩⟩⟩
    refine wp_saveWalLR (fun _ => by simp [none])
      (fun lock b _ _ _ => by simp [P]) (fun lock b _ _ _ => ?_)
    have hok' := hok.insert s.round ({ signature := sig, choke := { height := s.height, round := s.round, «from» := s.updateFrom }, address := s.address } : SignedChoke)
    refine wp_checkChoke hok' (fun hn => ?_) (fun R scs _ _ hn => absurd hn (hc _ _)) fun R scs sig' htop hpm hsig' => ?_
    · exact fun _ => ⟨hok', fun h => absurd h (by simp), fun a ha => ⟨⟨_, by simpa using ha, rfl⟩, fun R hR => absurd hR (hn R), fun _ => rfl⟩⟩
    · refine fun _ => ⟨hok'.setQc _ _, fun h => absurd h (by simp), fun a ha => ⟨⟨_, by simpa using ha, rfl⟩, fun R' hR' => ?_, fun hn => absurd htop (hn R)⟩⟩
      have hRR : R' = R := Nat.le_antisymm (htop.2.2 R' hR'.2.1) (hR'.2.2 R htop.2.1)
      subst hRR
      rfl
  exact (wp_post this) hb

/-- An order to choke for another place. -/
theorem brake_other {e : Env T} {s : State T} {h r : Nat} {lr : Option Nat} (hn : ¬ (h = s.height ∧ r = s.round)) :
    (runArm (.event (.brake h r lr)) e ⟨s, []⟩).2 = ⟨s, []⟩ := by
  have : wp (runArm (.event (.brake h r lr))) e ⟨s, []⟩ (fun _ w => w = ⟨s, []⟩) (fun _ w => w = ⟨s, []⟩) := by
    unfold runArm handleEvent handleBrake
    wps
    refine ⟨fun _ => trivial, fun _ => ⟨fun _ => trivial, fun _ => ⟨fun _ => trivial, fun hh => ⟨fun _ => by simp, fun hr => ?_⟩⟩⟩⟩
    exact absurd ⟨by omega, by omega⟩ hn
  exact wp_post this

theorem gstep {e : Env T} {i : Input T} {s : State T} (hok : ChokesOk s.chokes) (hp : s.consensusPower = true)
    (hi : StaysPut e i s) (hc : ∀ sigs voters, e.crypto.aggregate sigs voters ≠ none) :
    GStep s (chokesNow s i) (runArm i e ⟨s, []⟩).2 := by
  have hok' : ChokesOk (next e i s).chokes :=
    arm_state_inv (P := fun s => ChokesOk s.chokes) hok fun _ _ _ h hm => chokesOk_micro h hm
  by_cases h1 : ∃ sc, i = .verified (.signedChoke sc)
  · obtain ⟨sc, rfl⟩ := h1
    have st := step (e := e) hok hp (hi.noLater sc rfl) hc
    by_cases hs : sc.choke.height = s.height ∧ sc.choke.round = s.round
    · have hnow : chokesNow s (.verified (.signedChoke sc)) = [sc.address] := if_pos hs
      rw [hnow]
      obtain ⟨a, b, c⟩ := st.inn hs.1 hs.2
      exact ⟨hok', fun h => absurd h (by simp), fun x hx => ⟨⟨sc, by simpa using hx, a⟩, b, c⟩⟩
    · have hnow : chokesNow s (.verified (.signedChoke sc)) = [] := if_neg hs
      rw [hnow]
      exact ⟨hok', fun _ => st.out hs, fun x hx => absurd hx (by simp)⟩
  by_cases h2 : ∃ h r lr, i = .event (.brake h r lr)
  · obtain ⟨h, r, lr, rfl⟩ := h2
    by_cases hs : h = s.height ∧ r = s.round
    · have hnow : chokesNow s (.event (.brake h r lr)) = [s.address] := if_pos hs
      rw [hnow]
      obtain ⟨rfl, rfl⟩ := hs
      exact brake hok lr hc (hi.sent lr rfl)
    · have hnow : chokesNow s (.event (.brake h r lr)) = [] := if_neg hs
      rw [hnow, brake_other hs]
      exact ⟨hok, fun _ => ⟨rfl, rfl⟩, fun x hx => absurd hx (by simp)⟩
  · have hnow : chokesNow s i = [] := by
      unfold chokesNow
      split
      · exact absurd ⟨_, rfl⟩ h1
      · exact absurd ⟨_, _, _, rfl⟩ h2
      · rfl
    rw [hnow]
    have := (calm (e := e) (s := s) hi.noRestart (fun h r lr hx => h2 ⟨h, r, lr, hx⟩) (fun sc hx => h1 ⟨sc, hx⟩)).2 hi.height
    exact ⟨hok', fun _ => ⟨by rw [this.1], this.2⟩, fun x hx => absurd hx (by simp)⟩

theorem now_cases (s : State T) (i : Input T) : chokesNow s i = [] ∨ ∃ a, chokesNow s i = [a] := by
  unfold chokesNow
  split
  · split
    · exact .inr ⟨_, rfl⟩
    · exact .inl rfl
  · split
    · exact .inr ⟨_, rfl⟩
    · exact .inl rfl
  · exact .inl rfl

theorem along {n : Nat} (ins : List (Env T × Input T)) : ∀ (s : State T) (seen : List Address), s.consensusPower = true →
    s.authority.len = n → Kept s seen → StaysPutAlong s ins →
    (∀ p ∈ ins, ∀ sigs voters, p.1.crypto.aggregate sigs voters ≠ none) →
    (∀ t ∈ leaveOrders (s.trace ins), t = leaveOrder s.height s.round) ∧
    (leaveOrders (s.trace ins) ≠ [] ↔ chokesSeen s ins ≠ [] ∧ ManyOf n (seen ++ chokesSeen s ins)) := by
  induction ins with
  | nil => intro s seen _ _ _ _ _; simp [State.trace, leaveOrders, triggers, chokesSeen]
  | cons p ins ih =>
    intro s seen hp hn hk hl hc
    obtain ⟨e, i⟩ := p
    obtain ⟨hi, hl'⟩ := hl
    have st := gstep (e := e) (i := i) (s := s) hk.ok hp hi (hc _ (List.mem_cons_self))
    rw [Certs.trace_cons hi.goesOn, leaveOrders_append]
    have hc' := fun p (hq : p ∈ ins) => hc p (List.mem_cons_of_mem _ hq)
    have hn' : (next e i s).authority.len = n := by rw [hi.authority, hn]
    have hp' : (next e i s).consensusPower = true := by rw [hi.power, hp]
    show (∀ t ∈ leaveOrders (effects e i s) ++ leaveOrders ((next e i s).trace ins), t = leaveOrder s.height s.round) ∧
      (leaveOrders (effects e i s) ++ leaveOrders ((next e i s).trace ins) ≠ [] ↔
        chokesNow s i ++ chokesSeen (next e i s) ins ≠ [] ∧ ManyOf n (seen ++ (chokesNow s i ++ chokesSeen (next e i s) ins)))
    rcases now_cases s i with h0 | ⟨a, h0⟩
    · obtain ⟨h1, h2⟩ := st.out h0
      have h1 : (next e i s).chokes.chokes = s.chokes.chokes := h1
      have h2 : leaveOrders (effects e i s) = [] := h2
      have hk' : Kept (next e i s) seen := by
        refine ⟨st.ok, fun a => ?_, fun R hR => ?_⟩
        · rw [held_congr h1, hi.round]; exact hk.here a
        · rw [held_congr h1]; exact hk.later R (by rw [← hi.round]; exact hR)
      obtain ⟨i1, i2⟩ := ih _ _ hp' hn' hk' hl' hc'
      rw [hi.height, hi.round] at i1
      rw [h0, h2]
      exact ⟨by simpa using i1, by simpa using i2⟩
    · obtain ⟨⟨sc, hsc, h1⟩, h2, h3⟩ := st.inn a h0
      have h1 : (next e i s).chokes.chokes = (s.chokes.insert s.round sc).chokes := h1
      have h2 : ∀ R, TopChokeRound (next e i s) R → leaveOrders (effects e i s) = [leaveOrder s.height R] := h2
      have h3 : (∀ R, ¬ TopChokeRound (next e i s) R) → leaveOrders (effects e i s) = [] := h3
      have hk' : Kept (next e i s) (seen ++ [a]) := by
        have hh : ∀ R y, y ∈ heldChokes (next e i s) R ↔ (R = s.round ∧ y = sc) ∨ (y ∈ heldChokes s R ∧ ¬ (R = s.round ∧ y.address = sc.address)) := by
          intro R y
          have := held_insert hk.ok s.round sc R y
          unfold ChokeCollector.held at this
          unfold heldChokes
          rw [← this]
          unfold ChokeCollector.getChokes
          rw [h1]
        subst hsc
        refine ⟨st.ok, fun a => ?_, fun R hR => ?_⟩
        · rw [hi.round, List.mem_append, ← hk.here a]
          simp only [List.mem_map, hh, List.mem_singleton, true_and]
          constructor
          · rintro ⟨y, (rfl | ⟨hy, _⟩), rfl⟩
            · exact .inr rfl
            · exact .inl ⟨y, hy, rfl⟩
          · rintro (⟨y, hy, rfl⟩ | rfl)
            · by_cases hya : y.address = sc.address
              · exact ⟨sc, .inl rfl, hya.symm⟩
              · exact ⟨y, .inr ⟨hy, hya⟩, rfl⟩
            · exact ⟨sc, .inl rfl, rfl⟩
        · rw [hi.round] at hR
          rw [List.eq_nil_iff_forall_not_mem]
          intro y hy
          rcases (hh R y).1 hy with ⟨h4, _⟩ | ⟨h4, _⟩
          · omega
          · rw [hk.later R hR] at h4; simp at h4
      obtain ⟨i1, i2⟩ := ih _ _ hp' hn' hk' hl' hc'
      rw [hi.height, hi.round] at i1
      rw [h0]
      have hE : (∀ t ∈ leaveOrders (effects e i s), t = leaveOrder s.height s.round) ∧ (leaveOrders (effects e i s) ≠ [] ↔ ManyOf n (seen ++ [a])) := by
        by_cases hm : ManyOf n (seen ++ [a])
        · have := h2 s.round ((hk'.top s.round).2 ⟨hi.round.symm, by rw [hn']; exact hm⟩)
          rw [this]
          exact ⟨by simp, by simp [hm]⟩
        · have := h3 fun R hR => hm (by rw [← hn']; exact ((hk'.top R).1 hR).2)
          rw [this]
          exact ⟨by simp, by simp [hm]⟩
      refine ⟨fun t ht => ?_, ?_⟩
      · rcases List.mem_append.1 ht with ht | ht
        · exact hE.1 t ht
        · exact i1 t ht
      · rw [ne_eq, List.append_eq_nil_iff, Classical.not_and_iff_not_or_not]
        show (leaveOrders (effects e i s) ≠ [] ∨ leaveOrders ((next e i s).trace ins) ≠ []) ↔ _
        rw [hE.2, i2, List.append_assoc]
        constructor
        · rintro (hm | ⟨_, hm⟩)
          · refine ⟨by simp, many_mono (fun b hb => ?_) hm⟩
            simp only [List.mem_append, List.mem_singleton] at hb ⊢
            rcases hb with hb | hb
            · exact .inl hb
            · exact .inr (.inl hb)
          · exact ⟨by simp, hm⟩
        · rintro ⟨_, hm⟩
          by_cases h4 : chokesSeen (next e i s) ins = []
          · rw [h4] at hm; exact .inl (by simpa using hm)
          · exact .inr ⟨h4, hm⟩

end Leave

/-- **C78, in any company.** Over any history in which the node stays at its height and round, the order to leave the
round is given exactly if more than two thirds of the number of validators, the node itself among them or not, have
choked; no other order to leave a round is given. -/
theorem C78_in_any_company (addr : Address) (h0 iv : Nat) (l0 : List Node) (before : List (Env T × Input T))
    (s : State T) (hs : (State.new addr h0 iv l0 : State T).after before = some s) (hp : s.consensusPower = true)
    (l : List Node) (ha : s.authority = Authority.update l) (hn : NoChokes s) (ins : List (Env T × Input T))
    (hl : StaysPutAlong s ins) (hc : ∀ p ∈ ins, ∀ sigs voters, p.1.crypto.aggregate sigs voters ≠ none) :
    (leaveOrder s.height s.round ∈ leaveOrders (s.trace ins) ↔ ManyOf l.length (chokesSeen s ins)) ∧
    ∀ t ∈ leaveOrders (s.trace ins), t = leaveOrder s.height s.round := by
  have hk : Leave.Kept s [] :=
    ⟨chokesOk_after hs, fun a => by rw [hn s.round (Nat.le_refl _)]; rfl, fun R hR => hn R (by omega)⟩
  obtain ⟨h1, h2⟩ := Leave.along (n := l.length) ins s [] hp (by rw [ha, update_len]) hk hl hc
  refine ⟨?_, h1⟩
  rw [List.nil_append] at h2
  have h3 : leaveOrder s.height s.round ∈ leaveOrders (s.trace ins) ↔ leaveOrders (s.trace ins) ≠ [] := by
    constructor
    · intro hm he; rw [he] at hm; simp at hm
    · intro hne
      obtain ⟨t, ht⟩ := List.exists_mem_of_ne_nil _ hne
      rw [← h1 t ht]; exact ht
  rw [h3, h2]
  constructor
  · exact And.right
  · intro hm
    refine ⟨?_, hm⟩
    intro he
    rw [he] at hm
    unfold ManyOf at hm
    simp at hm

namespace LeaveDemo
open StDemo

/-- A vote, a choke, the own choke, a proposal, a choke of another height, a third choke. -/
def company : List (Env C × Input C) :=
  [(env, .verified (.signedVote (vote 3 7 0 .prevote [8]))), (env, .verified (.signedChoke (choke 2 7 0 (.chokeQC ⟨7, 0, [], []⟩)))),
   (env, .event (.brake 7 0 none)), (env, .verified (.signedProposal (prop 2 7 1 [8, 8] [8]))),
   (env, .verified (.signedChoke (choke 3 8 0 (.chokeQC ⟨7, 0, [], []⟩)))), (env, .verified (.signedChoke (choke 4 7 0 (.chokeQC ⟨7, 0, [], []⟩))))]

/-- `StaysPut` by computation. -/
def staysPutB (e : Env C) (i : Input C) (s : State C) : Bool :=
  (match (runArm i e ⟨s, []⟩).1 with | .ok b => b | .error _ => false) &&
  (match i with
    | .start => false
    | .verified (.signedChoke sc) => decide (¬ (sc.choke.height = s.height ∧ s.round < sc.choke.round))
    | .event (.brake _ _ _) => (effects e i s).any fun | .broadcast (.signedChoke _) => true | _ => false
    | _ => true) &&
  decide ((next e i s).height = s.height) && decide ((next e i s).round = s.round) &&
  decide ((next e i s).authority = s.authority) && decide ((next e i s).consensusPower = s.consensusPower)

def staysPutAlongB (s : State C) : List (Env C × Input C) → Bool
  | [] => true
  | (e, i) :: ins => staysPutB e i s && staysPutAlongB (next e i s) ins

theorem staysPutAlong_sound (ins : List (Env C × Input C)) : ∀ s, staysPutAlongB s ins = true → StaysPutAlong s ins := by
  induction ins with
  | nil => intro s _; exact trivial
  | cons p ins ih =>
    intro s hs
    obtain ⟨e, i⟩ := p
    simp only [staysPutAlongB, staysPutB, Bool.and_eq_true, decide_eq_true_eq] at hs
    obtain ⟨⟨⟨⟨⟨⟨h1, h2⟩, h3⟩, h4⟩, h5⟩, h6⟩, hr⟩ := hs
    refine ⟨⟨?_, ?_, h3, h4, h5, h6, ?_, ?_⟩, ih _ hr⟩
    · split at h1
      · rename_i b hb; rw [hb, h1]
      · cases h1
    · rintro rfl; cases h2
    · rintro sc rfl
      exact of_decide_eq_true h2
    · rintro lr rfl
      rw [List.any_eq_true] at h2
      obtain ⟨x, hx, hx2⟩ := h2
      split at hx2
      · exact ⟨_, hx⟩
      · cases hx2

end LeaveDemo

open LeaveDemo StDemo in
/-- The hypotheses of the general statement are met, with the own choke among those that suffice. -/
example : leaveOrder 7 0 ∈ leaveOrders (st0.trace company) :=
  (C78_in_any_company [1] 7 3000 nodes [] st0 rfl rfl nodes rfl (fun R _ => rfl) company (staysPutAlong_sound _ _ (by decide +kernel))
    (by
      intro p hp sigs voters
      simp only [company, List.mem_cons, List.not_mem_nil, or_false] at hp
      rcases hp with rfl | rfl | rfl | rfl | rfl | rfl <;> simp [env, crypto])).1.2 (by unfold ManyOf; decide +kernel)

end Overlord
