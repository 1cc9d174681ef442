import Verif.Spec.Leave
import Verif.Props.State6
import Verif.Proofs.StateDemo
import Mathlib.Data.List.Dedup

/-!
# C78 — a round is left exactly when enough chokes have come, whatever their order

English: to a node that keeps no chokes of its round or a later one, verified chokes are handed one after the other, of
whatever senders, heights and rounds (those of a later round of its height bring a certificate and are left out). It
orders its voting logic to leave its round, for the next one, exactly if more than two thirds of the number of
validators have sent a choke of its height and round, each sender counted once; so whether the round is left does not
depend on the order in which the chokes come, on repetitions, or on chokes of other heights and rounds.
-/

set_option linter.unusedSectionVars false

namespace Overlord
open M Spec

variable {T : Type} [ContentCodec T] [DecidableEq T]

namespace Leave

/-- What one choke does. -/
structure Step (s : State T) (sc : SignedChoke) (b : Except Err Bool) (w : World T) : Prop where
  goesOn : b = .ok true
  height : w.st.height = s.height
  round : w.st.round = s.round
  auth : w.st.authority = s.authority
  power : w.st.consensusPower = s.consensusPower
  ok : ChokesOk w.st.chokes
  out : ¬ (sc.choke.height = s.height ∧ sc.choke.round = s.round) → w.st.chokes.chokes = s.chokes.chokes ∧ leaveOrders w.log = []
  inn : sc.choke.height = s.height → sc.choke.round = s.round → w.st.chokes.chokes = (s.chokes.insert s.round sc).chokes ∧
    (∀ R, TopChokeRound w.st R → leaveOrders w.log = [leaveOrder s.height R]) ∧
    ((∀ R, ¬ TopChokeRound w.st R) → leaveOrders w.log = [])

theorem step {e : Env T} {s : State T} {sc : SignedChoke} (hok : ChokesOk s.chokes) (hp : s.consensusPower = true)
    (hl : ¬ (sc.choke.height = s.height ∧ s.round < sc.choke.round)) (hc : ∀ sigs voters, e.crypto.aggregate sigs voters ≠ none) :
    Step s sc (runArm (.verified (.signedChoke sc)) e ⟨s, []⟩).1 (runArm (.verified (.signedChoke sc)) e ⟨s, []⟩).2 := by
  have quiet : ¬ (sc.choke.height = s.height ∧ sc.choke.round = s.round) → Step s sc (.ok true) ⟨s, []⟩ :=
    fun hn => ⟨rfl, rfl, rfl, rfl, rfl, hok, fun _ => ⟨rfl, rfl⟩, fun h1 h2 => absurd ⟨h1, h2⟩ hn⟩
  have : wp (runArm (.verified (.signedChoke sc))) e ⟨s, []⟩ (fun b w => Step s sc (.ok b) w) (fun _ _ => False) := by
    unfold runArm handleMsg handleSignedChoke
    wps
    refine ⟨fun h1 => by simp [hp] at h1, fun _ => ⟨fun h1 => quiet fun h => h1 h.1, fun hh => ?_⟩⟩
    have hh : sc.choke.height = s.height := by omega
    refine ⟨fun h1 => quiet fun h => by omega, fun h1 => ⟨fun h2 => absurd ⟨hh, h2⟩ hl, fun h2 => ?_⟩⟩
    have hr : sc.choke.round = s.round := by omega
    rw [hr]
    have hok' := hok.insert s.round sc
    refine wp_checkChoke hok' (fun hn => ?_) (fun R scs _ _ hn => absurd hn (hc _ _)) fun R scs sig htop hpm hsig => ?_
    · exact ⟨rfl, rfl, rfl, rfl, rfl, hok', fun h => absurd ⟨hh, hr⟩ h, fun _ _ => ⟨rfl, fun R hR => absurd hR (hn R), fun _ => rfl⟩⟩
    · refine ⟨rfl, rfl, rfl, rfl, rfl, hok'.setQc _ _, fun h => absurd ⟨hh, hr⟩ h, fun _ _ => ⟨rfl, fun R' hR' => ?_, fun hn => absurd htop (hn R)⟩⟩
      have hRR : R' = R := Nat.le_antisymm (htop.2.2 R' hR'.2.1) (hR'.2.2 R htop.2.1)
      subst hRR
      rfl
  unfold wp at this
  revert this
  cases runArm (.verified (.signedChoke sc)) e ⟨s, []⟩ with
  | mk x w =>
    cases x with
    | ok b => exact id
    | error x => exact False.elim

/-- The chokes kept are those of these senders for the round, and none for later ones. -/
structure Kept (s : State T) (seen : List Address) : Prop where
  ok : ChokesOk s.chokes
  here : ∀ a, a ∈ (heldChokes s s.round).map SignedChoke.address ↔ a ∈ seen
  later : ∀ R, s.round < R → heldChokes s R = []

theorem Kept.length {s : State T} {seen : List Address} (h : Kept s seen) : (heldChokes s s.round).length = seen.dedup.length := by
  have h1 : ((heldChokes s s.round).map SignedChoke.address).Nodup := held_nodup h.ok _
  have : ((heldChokes s s.round).map SignedChoke.address).Perm seen.dedup :=
    (List.perm_ext_iff_of_nodup h1 (List.nodup_dedup _)).2 fun a => by rw [h.here, List.mem_dedup]
  simpa using this.length_eq

theorem Kept.top {s : State T} {seen : List Address} (h : Kept s seen) (R : Nat) :
    TopChokeRound s R ↔ R = s.round ∧ ManyOf s.authority.len seen := by
  have hq : HoldsChokeQuorum s s.round ↔ ManyOf s.authority.len seen := by
    unfold HoldsChokeQuorum ManyOf; rw [h.length]
  have hn : ∀ R', s.round < R' → ¬ HoldsChokeQuorum s R' := by
    intro R' hR'
    unfold HoldsChokeQuorum
    rw [h.later R' hR']; simp
  constructor
  · rintro ⟨h1, h2, _⟩
    have : R = s.round := by
      rcases Nat.lt_or_ge s.round R with h3 | h3
      · exact absurd h2 (hn R h3)
      · omega
    subst this
    exact ⟨rfl, hq.1 h2⟩
  · rintro ⟨rfl, h2⟩
    refine ⟨Nat.le_refl _, hq.2 h2, fun R' hR' => ?_⟩
    rcases Nat.lt_or_ge s.round R' with h3 | h3
    · exact absurd hR' (hn R' h3)
    · exact h3

theorem held_congr {s s' : State T} (h : s'.chokes.chokes = s.chokes.chokes) (R : Nat) : heldChokes s' R = heldChokes s R := by
  unfold heldChokes ChokeCollector.getChokes; rw [h]

theorem many_mono {n : Nat} {as bs : List Address} (h : ∀ a ∈ as, a ∈ bs) (hm : ManyOf n as) : ManyOf n bs := by
  unfold ManyOf at *
  have : as.dedup.length ≤ bs.dedup.length := by
    refine (List.Subperm.length_le ((List.nodup_dedup as).subperm fun a ha => ?_))
    rw [List.mem_dedup] at ha ⊢
    exact h a ha
  omega

theorem chokers_cons (sc : SignedChoke) (cs : List SignedChoke) (h r : Nat) :
    chokers (sc :: cs) h r = (if sc.choke.height = h ∧ sc.choke.round = r then [sc.address] else []) ++ chokers cs h r := by
  unfold chokers
  rw [List.filter_cons]
  split <;> split <;> simp_all

theorem leaveOrders_append (f g : List (Effect T)) : leaveOrders (f ++ g) = leaveOrders f ++ leaveOrders g := by
  unfold leaveOrders triggers
  rw [List.filterMap_append, List.filter_append]

/-- All the orders are for the round, and there is one exactly if enough chokes of the round come at some point. -/
theorem all {n : Nat} (cs : List (Env T × SignedChoke)) : ∀ (s : State T) (seen : List Address), s.consensusPower = true →
    s.authority.len = n → Kept s seen → (∀ p ∈ cs, ¬ (p.2.choke.height = s.height ∧ s.round < p.2.choke.round)) →
    (∀ p ∈ cs, ∀ sigs voters, p.1.crypto.aggregate sigs voters ≠ none) →
    (∀ t ∈ leaveOrders (s.trace (handChokes cs)), t = leaveOrder s.height s.round) ∧
    (leaveOrders (s.trace (handChokes cs)) ≠ [] ↔
      chokers (cs.map Prod.snd) s.height s.round ≠ [] ∧ ManyOf n (seen ++ chokers (cs.map Prod.snd) s.height s.round)) := by
  induction cs with
  | nil => intro s seen _ _ _ _ _; simp [handChokes, State.trace, leaveOrders, triggers, chokers]
  | cons p cs ih =>
    intro s seen hp hn hk hl hc
    obtain ⟨e, sc⟩ := p
    have st := step (e := e) (s := s) (sc := sc) hk.ok hp (hl _ (List.mem_cons_self)) (hc _ (List.mem_cons_self))
    have htr : s.trace (handChokes ((e, sc) :: cs)) =
        (runArm (.verified (.signedChoke sc)) e ⟨s, []⟩).2.log ++ (runArm (.verified (.signedChoke sc)) e ⟨s, []⟩).2.st.trace (handChokes cs) := by
      have hg := st.goesOn
      show State.trace s ((e, .verified (.signedChoke sc)) :: handChokes cs) = _
      simp only [State.trace]
      revert hg
      cases runArm (.verified (.signedChoke sc)) e ⟨s, []⟩ with
      | mk x w => rintro rfl; rfl
    rw [htr, leaveOrders_append]
    generalize runArm (.verified (.signedChoke sc)) e ⟨s, []⟩ = xw at st ⊢
    obtain ⟨x, w⟩ := xw
    dsimp only at st ⊢
    have hl' : ∀ p ∈ cs, ¬ (p.2.choke.height = w.st.height ∧ w.st.round < p.2.choke.round) := by
      rw [st.height, st.round]; exact fun p hq => hl p (List.mem_cons_of_mem _ hq)
    have hc' := fun p (hq : p ∈ cs) => hc p (List.mem_cons_of_mem _ hq)
    have hn' : w.st.authority.len = n := by rw [st.auth, hn]
    have hp' : w.st.consensusPower = true := by rw [st.power, hp]
    rw [List.map_cons, chokers_cons]
    by_cases hs : sc.choke.height = s.height ∧ sc.choke.round = s.round
    · obtain ⟨h1, h2, h3⟩ := st.inn hs.1 hs.2
      have hk' : Kept w.st (seen ++ [sc.address]) := by
        have hh : ∀ R y, y ∈ heldChokes w.st R ↔ (R = s.round ∧ y = sc) ∨ (y ∈ heldChokes s R ∧ ¬ (R = s.round ∧ y.address = sc.address)) := by
          intro R y
          have := held_insert hk.ok s.round sc R y
          unfold ChokeCollector.held at this
          unfold heldChokes
          rw [← this]
          unfold ChokeCollector.getChokes
          rw [h1]
        refine ⟨st.ok, fun a => ?_, fun R hR => ?_⟩
        · rw [st.round, List.mem_append, ← hk.here a]
          simp only [List.mem_map, hh, List.mem_singleton, true_and]
          constructor
          · rintro ⟨y, (rfl | ⟨hy, _⟩), rfl⟩
            · exact .inr rfl
            · exact .inl ⟨y, hy, rfl⟩
          · rintro (⟨y, hy, rfl⟩ | rfl)
            · by_cases hya : y.address = sc.address
              · exact ⟨sc, .inl rfl, hya.symm⟩
              · exact ⟨y, .inr ⟨hy, hya⟩, rfl⟩
            · exact ⟨sc, .inl rfl, rfl⟩
        · rw [st.round] at hR
          rw [List.eq_nil_iff_forall_not_mem]
          intro y hy
          rcases (hh R y).1 hy with ⟨h4, _⟩ | ⟨h4, _⟩
          · omega
          · rw [hk.later R hR] at h4; simp at h4
      obtain ⟨i1, i2⟩ := ih w.st _ hp' hn' hk' hl' hc'
      rw [st.height, st.round] at i1 i2
      rw [if_pos hs]
      have hE : (∀ t ∈ leaveOrders w.log, t = leaveOrder s.height s.round) ∧ (leaveOrders w.log ≠ [] ↔ ManyOf n (seen ++ [sc.address])) := by
        by_cases hm : ManyOf n (seen ++ [sc.address])
        · have := h2 s.round ((hk'.top s.round).2 ⟨st.round.symm, by rw [hn']; exact hm⟩)
          rw [this]
          exact ⟨by simp, by simp [hm]⟩
        · have := h3 fun R hR => hm (by rw [← hn']; exact ((hk'.top R).1 hR).2)
          rw [this]
          exact ⟨by simp, by simp [hm]⟩
      refine ⟨fun t ht => ?_, ?_⟩
      · rcases List.mem_append.1 ht with ht | ht
        · exact hE.1 t ht
        · exact i1 t ht
      · rw [ne_eq, List.append_eq_nil_iff, Classical.not_and_iff_not_or_not]
        show (leaveOrders w.log ≠ [] ∨ leaveOrders (w.st.trace (handChokes cs)) ≠ []) ↔ _
        rw [hE.2, i2, List.append_assoc]
        constructor
        · rintro (hm | ⟨_, hm⟩)
          · refine ⟨by simp, many_mono (fun a ha => ?_) hm⟩
            simp only [List.mem_append, List.mem_singleton] at ha ⊢
            rcases ha with ha | ha
            · exact .inl ha
            · exact .inr (.inl ha)
          · exact ⟨by simp, hm⟩
        · rintro ⟨_, hm⟩
          by_cases h4 : chokers (cs.map Prod.snd) s.height s.round = []
          · rw [h4] at hm; exact .inl (by simpa using hm)
          · exact .inr ⟨h4, hm⟩
    · obtain ⟨h1, h2⟩ := st.out hs
      have hk' : Kept w.st seen := by
        refine ⟨st.ok, fun a => ?_, fun R hR => ?_⟩
        · rw [held_congr h1, st.round]; exact hk.here a
        · rw [held_congr h1]; exact hk.later R (by rw [← st.round]; exact hR)
      obtain ⟨i1, i2⟩ := ih w.st _ hp' hn' hk' hl' hc'
      rw [st.height, st.round] at i1 i2
      rw [if_neg hs, h2]
      exact ⟨by simpa using i1, by simpa using i2⟩

end Leave

/-- **C78.** The order to leave the round is given exactly if more than two thirds of the number of validators have
sent a choke of the height and round; and no other order to leave a round is given. -/
theorem C78_left_iff_two_thirds (addr : Address) (h0 iv : Nat) (l0 : List Node) (ins : List (Env T × Input T))
    (s : State T) (hs : (State.new addr h0 iv l0 : State T).after ins = some s) (hp : s.consensusPower = true)
    (l : List Node) (ha : s.authority = Authority.update l) (hn : NoChokes s) (cs : List (Env T × SignedChoke))
    (hl : ∀ p ∈ cs, ¬ (p.2.choke.height = s.height ∧ s.round < p.2.choke.round))
    (hc : ∀ p ∈ cs, ∀ sigs voters, p.1.crypto.aggregate sigs voters ≠ none) :
    (leaveOrder s.height s.round ∈ leaveOrders (s.trace (handChokes cs)) ↔
      ManyOf l.length (chokers (cs.map Prod.snd) s.height s.round)) ∧
    ∀ t ∈ leaveOrders (s.trace (handChokes cs)), t = leaveOrder s.height s.round := by
  have hk : Leave.Kept s [] :=
    ⟨chokesOk_after hs, fun a => by rw [hn s.round (Nat.le_refl _)]; rfl, fun R hR => hn R (by omega)⟩
  obtain ⟨h1, h2⟩ := Leave.all (n := l.length) cs s [] hp (by rw [ha, update_len]) hk hl hc
  refine ⟨?_, h1⟩
  rw [List.nil_append] at h2
  have h3 : leaveOrder s.height s.round ∈ leaveOrders (s.trace (handChokes cs)) ↔ leaveOrders (s.trace (handChokes cs)) ≠ [] := by
    constructor
    · intro hm he; rw [he] at hm; simp at hm
    · intro hne
      obtain ⟨t, ht⟩ := List.exists_mem_of_ne_nil _ hne
      rw [← h1 t ht]; exact ht
  rw [h3, h2]
  constructor
  · exact And.right
  · intro hm
    refine ⟨?_, hm⟩
    intro he
    rw [he] at hm
    unfold ManyOf at hm
    simp at hm

/-- **C78, order.** Whether the round is left is the same for the same chokes in any order, with repetitions, and with
chokes of other heights and rounds among them. -/
theorem C78_order_does_not_matter (addr : Address) (h0 iv : Nat) (l0 : List Node) (ins : List (Env T × Input T))
    (s : State T) (hs : (State.new addr h0 iv l0 : State T).after ins = some s) (hp : s.consensusPower = true)
    (l : List Node) (ha : s.authority = Authority.update l) (hn : NoChokes s) (cs cs' : List (Env T × SignedChoke))
    (hl : ∀ p ∈ cs, ¬ (p.2.choke.height = s.height ∧ s.round < p.2.choke.round))
    (hl' : ∀ p ∈ cs', ¬ (p.2.choke.height = s.height ∧ s.round < p.2.choke.round))
    (hc : ∀ p ∈ cs, ∀ sigs voters, p.1.crypto.aggregate sigs voters ≠ none)
    (hc' : ∀ p ∈ cs', ∀ sigs voters, p.1.crypto.aggregate sigs voters ≠ none)
    (hsame : ∀ sc : SignedChoke, sc.choke.height = s.height → sc.choke.round = s.round →
      (sc ∈ cs.map Prod.snd ↔ sc ∈ cs'.map Prod.snd)) :
    leaveOrder s.height s.round ∈ leaveOrders (s.trace (handChokes cs)) ↔
      leaveOrder s.height s.round ∈ leaveOrders (s.trace (handChokes cs')) := by
  rw [(C78_left_iff_two_thirds addr h0 iv l0 ins s hs hp l ha hn cs hl hc).1,
    (C78_left_iff_two_thirds addr h0 iv l0 ins s hs hp l ha hn cs' hl' hc').1]
  have key : ∀ a, a ∈ chokers (cs.map Prod.snd) s.height s.round ↔ a ∈ chokers (cs'.map Prod.snd) s.height s.round := by
    intro a
    unfold chokers
    simp only [List.mem_map (f := SignedChoke.address), List.mem_filter, decide_eq_true_eq]
    constructor
    · rintro ⟨sc, ⟨hm, h1, h2⟩, rfl⟩; exact ⟨sc, ⟨(hsame sc h1 h2).1 hm, h1, h2⟩, rfl⟩
    · rintro ⟨sc, ⟨hm, h1, h2⟩, rfl⟩; exact ⟨sc, ⟨(hsame sc h1 h2).2 hm, h1, h2⟩, rfl⟩
  exact ⟨Leave.many_mono fun a ha => (key a).1 ha, Leave.many_mono fun a ha => (key a).2 ha⟩

/-! ## A case -/

namespace LeaveDemo
open StDemo

/-- A choke of an earlier height, one of a later height, two of validator 2, and those of 3 and 4. -/
def chokes : List (Env C × SignedChoke) :=
  [(env, choke 2 6 0 (.chokeQC ⟨6, 0, [], []⟩)), (env, choke 2 7 0 (.chokeQC ⟨7, 0, [], []⟩)), (env, choke 3 8 4 (.chokeQC ⟨7, 0, [], []⟩)),
   (env, choke 2 7 0 (.chokeQC ⟨7, 0, [], []⟩)), (env, choke 3 7 0 (.chokeQC ⟨7, 0, [], []⟩)), (env, choke 4 7 0 (.chokeQC ⟨7, 0, [], []⟩))]

end LeaveDemo

open LeaveDemo StDemo in
example : leaveOrders (st0.trace (handChokes chokes)) = [leaveOrder 7 0] ∧
    leaveOrders (st0.trace (handChokes (chokes.take 5))) = [] := by decide +kernel

open LeaveDemo StDemo in
/-- The hypotheses are met and the round is left. -/
example : leaveOrder 7 0 ∈ leaveOrders (st0.trace (handChokes chokes)) :=
  (C78_left_iff_two_thirds [1] 7 3000 nodes [] st0 rfl rfl nodes rfl (fun R _ => rfl) chokes (by decide +kernel)
    (by
      intro p hp sigs voters
      simp only [chokes, List.mem_cons, List.not_mem_nil, or_false] at hp
      rcases hp with rfl | rfl | rfl | rfl | rfl | rfl <;> simp [env, crypto])).1.2 (by unfold ManyOf; decide +kernel)

end Overlord
