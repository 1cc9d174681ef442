import Verif.Proofs.StateInv
import Verif.Proofs.Map
import Verif.Spec.State

/-! The choke collector: what it holds and when it reaches the threshold. -/

set_option linter.unusedSimpArgs false
set_option linter.unusedVariables false

namespace Overlord
open M Spec

/-- One entry per round and sender. -/
def ChokesOk (c : ChokeCollector) : Prop :=
  (AMap.keys c.chokes).Nodup ∧ ∀ r m, AMap.get? c.chokes r = some m →
    (AMap.keys m).Nodup ∧ ∀ a sc, (a, sc) ∈ m → a = sc.address

theorem ChokesOk.new : ChokesOk .new := by
  refine ⟨by simp [ChokeCollector.new, AMap.keys], ?_⟩
  intro r m h; simp [ChokeCollector.new] at h

theorem mem_insert_map {K V : Type} [DecidableEq K] (m : AMap K V) (h : (AMap.keys m).Nodup) (k : K) (v : V) (k' : K) (v' : V) :
    (k', v') ∈ m.insert k v ↔ (k' = k ∧ v' = v) ∨ (k' ≠ k ∧ (k', v') ∈ m) := by
  rw [AMap.mem_iff_get? _ (AMap.nodup_insert m k v h), AMap.get?_insert, AMap.mem_iff_get? _ h]
  by_cases hk : k' = k
  · simp [hk, eq_comm]
  · simp [hk, Ne.symm hk]

theorem ChokesOk.setQc {c : ChokeCollector} (h : ChokesOk c) (r : Nat) (qc : AggregatedChoke) :
    ChokesOk (c.setQc r qc) := h

theorem inner_ok {c : ChokeCollector} (h : ChokesOk c) (r : Nat) :
    (AMap.keys ((AMap.get? c.chokes r).getD [])).Nodup ∧
    ∀ a sc, (a, sc) ∈ (AMap.get? c.chokes r).getD [] → a = sc.address := by
  cases hm : AMap.get? c.chokes r with
  | none => simp [AMap.keys]
  | some m => exact h.2 r m hm

theorem ChokesOk.insert {c : ChokeCollector} (h : ChokesOk c) (r : Nat) (sc : SignedChoke) :
    ChokesOk (c.insert r sc) := by
  have hi := inner_ok h r
  refine ⟨AMap.nodup_insert _ _ _ h.1, ?_⟩
  intro r' m hm
  unfold ChokeCollector.insert at hm
  simp only [AMap.get?_insert] at hm
  split at hm
  · cases hm
    refine ⟨AMap.nodup_insert _ _ _ hi.1, ?_⟩
    intro a x hx
    rw [mem_insert_map _ hi.1] at hx
    rcases hx with ⟨rfl, rfl⟩ | ⟨_, hx⟩
    · rfl
    · exact hi.2 a x hx
  · exact h.2 r' m hm

theorem find_sorted {V : Type} (l : List (Nat × V)) (hs : l.Pairwise (fun p q => p.1 ≥ q.1)) (p : V → Bool) (r : Nat) :
    (l.find? fun x => p x.2).map Prod.fst = some r → (∃ v, (r, v) ∈ l ∧ p v = true) ∧ ∀ r' v, (r', v) ∈ l → p v = true → r' ≤ r := by
  induction l with
  | nil => simp
  | cons x l ih =>
    rw [List.pairwise_cons] at hs
    rw [List.find?_cons]
    cases hp : p x.2 with
    | true =>
      intro h
      simp at h
      subst h
      refine ⟨⟨x.2, by simp, hp⟩, ?_⟩
      intro r' v hm _
      rcases List.mem_cons.1 hm with h | h
      · rw [← h]
      · exact hs.1 _ h
    | false =>
      intro h
      obtain ⟨⟨v, hv, hpv⟩, h2⟩ := ih hs.2 h
      refine ⟨⟨v, List.mem_cons_of_mem _ hv, hpv⟩, ?_⟩
      intro r' v' hm hp'
      rcases List.mem_cons.1 hm with h | h
      · subst h; rw [hp] at hp'; cases hp'
      · exact h2 _ _ h hp'

theorem mem_sorted (c : ChokeCollector) (x : Nat × AMap Address SignedChoke) :
    x ∈ c.chokes.insertionSort (fun p q => p.1 ≥ q.1) ↔ x ∈ c.chokes :=
  (List.perm_insertionSort _ _).mem_iff

/-- The chokes held for a round. -/
def ChokeCollector.held (c : ChokeCollector) (r : Nat) : List SignedChoke :=
  (c.getChokes .same r).getD []

theorem held_eq (c : ChokeCollector) (r : Nat) : c.held r = ((AMap.get? c.chokes r).getD []).map Prod.snd := by
  unfold ChokeCollector.held ChokeCollector.getChokes
  cases AMap.get? c.chokes r <;> rfl

theorem maxRound_some {c : ChokeCollector} (hok : ChokesOk c) {n r : Nat} (h : c.maxRoundAboveThreshold n = some r) :
    2 * n < 3 * (c.held r).length ∧ ∀ r', 2 * n < 3 * (c.held r').length → r' ≤ r := by
  unfold ChokeCollector.maxRoundAboveThreshold at h
  have hs : (c.chokes.insertionSort (fun p q => p.1 ≥ q.1)).Pairwise (fun p q => p.1 ≥ q.1) := by
    have : Std.Total (fun p q : Nat × AMap Address SignedChoke => p.1 ≥ q.1) := ⟨fun a b => Nat.le_total _ _⟩
    have : IsTrans _ (fun p q : Nat × AMap Address SignedChoke => p.1 ≥ q.1) := ⟨fun a b c h1 h2 => Nat.le_trans h2 h1⟩
    exact List.pairwise_insertionSort _ _
  obtain ⟨⟨v, hv, hp⟩, h2⟩ := find_sorted _ hs (fun m => decide (m.length * 3 > n * 2)) r h
  rw [mem_sorted] at hv
  have hg := AMap.get?_of_mem _ hok.1 hv
  refine ⟨?_, ?_⟩
  · rw [held_eq, hg]; simp at hp ⊢; omega
  · intro r' hr'
    rw [held_eq] at hr'
    cases hm : AMap.get? c.chokes r' with
    | none => simp [hm] at hr'
    | some m =>
      rw [hm] at hr'; simp at hr'
      exact h2 r' m ((mem_sorted _ _).2 (AMap.mem_of_get? _ hm)) (by simp; omega)

theorem maxRound_none {c : ChokeCollector} {n : Nat} (h : c.maxRoundAboveThreshold n = none) (r : Nat) :
    ¬ 2 * n < 3 * (c.held r).length := by
  intro hr
  unfold ChokeCollector.maxRoundAboveThreshold at h
  rw [Option.map_eq_none_iff, List.find?_eq_none] at h
  rw [held_eq] at hr
  cases hm : AMap.get? c.chokes r with
  | none => simp [hm] at hr
  | some m =>
    rw [hm] at hr; simp at hr
    have := h (r, m) ((mem_sorted _ _).2 (AMap.mem_of_get? _ hm))
    simp at this; omega

theorem held_insert {c : ChokeCollector} (hok : ChokesOk c) (r : Nat) (sc : SignedChoke) (r' : Nat) (x : SignedChoke) :
    x ∈ (c.insert r sc).held r' ↔ (r' = r ∧ x = sc) ∨ (x ∈ c.held r' ∧ ¬ (r' = r ∧ x.address = sc.address)) := by
  have hi := inner_ok hok r
  rw [held_eq, held_eq]
  unfold ChokeCollector.insert
  simp only [AMap.get?_insert]
  by_cases hr : r' = r
  · subst hr
    simp only [if_true, Option.getD_some, true_and, List.mem_map, Prod.exists, exists_eq_right, mem_insert_map _ hi.1]
    constructor
    · rintro ⟨a, ⟨rfl, rfl⟩ | ⟨hne, hm⟩⟩
      · exact .inl rfl
      · refine .inr ⟨⟨a, hm⟩, ?_⟩
        rw [← hi.2 a x hm]; exact hne
    · rintro (rfl | ⟨⟨a, hm⟩, hne⟩)
      · exact ⟨x.address, .inl ⟨rfl, rfl⟩⟩
      · refine ⟨a, .inr ⟨?_, hm⟩⟩
        rw [hi.2 a x hm]; exact hne
  · simp [hr, Ne.symm hr]

theorem held_nodup {c : ChokeCollector} (hok : ChokesOk c) (r : Nat) : ((c.held r).map SignedChoke.address).Nodup := by
  have hi := inner_ok hok r
  rw [held_eq, List.map_map]
  have : ((AMap.get? c.chokes r).getD []).map (SignedChoke.address ∘ Prod.snd) = AMap.keys ((AMap.get? c.chokes r).getD []) := by
    unfold AMap.keys
    apply List.map_congr_left
    rintro ⟨a, sc⟩ hm
    exact (hi.2 a sc hm).symm
  rw [this]; exact hi.1

variable {T : Type} [ContentCodec T] [DecidableEq T]

theorem chokesOk_micro {e : Env T} {i : Input T} {s : State T} {eff : List (Effect T)} {s' : State T}
    (h : ChokesOk s.chokes) (hm : Micro e i s eff s') : ChokesOk s'.chokes := by
  cases hm with
  | recvChoke => exact h.insert _ _
  | ownChoke => exact h.insert _ _
  | chokeQuorum => exact h.setQc _ _
  | recvChokeQc => exact h.setQc _ _
  | adopt => exact ChokesOk.new
  | _ => exact h

theorem chokesOk_after {addr : Address} {ih iv : Nat} {l : List Node} {ins : List (Env T × Input T)}
    {s : State T} (h : (State.new addr ih iv l : State T).after ins = some s) : ChokesOk s.chokes :=
  after_inv (P := fun _ s => ChokesOk s.chokes) ChokesOk.new
    (fun _ _ _ _ hp => arm_state_inv (P := fun s => ChokesOk s.chokes) hp fun _ _ _ h hm => chokesOk_micro h hm) h

end Overlord
