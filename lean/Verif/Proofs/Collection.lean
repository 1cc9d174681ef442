import Verif.Model.Collection
import Verif.Spec.Collection
import Verif.Proofs.Authority

set_option linter.unusedSimpArgs false

namespace Overlord
open Spec

/-- How the State applies a history to its vote collector (process.rs:685-690, 887-892, 915, 1019, 1042, 1106, 1713). -/
def applyVoteOp (c : VoteCollector) : VoteOp → VoteCollector
  | .vote sv => c.insertVote sv.vote.blockHash sv sv.voter
  | .qc q => c.setQc q

def poolD (c : VoteCollector) (h r : Nat) (ty : VoteType) : Votes := (c.pool h r ty).getD .new

theorem votes_insertVote (rc : RoundCollector) (hash : Hash) (sv : SignedVote) (a : Address)
    (ty : VoteType) :
    (rc.insertVote hash sv a).votes ty =
      if sv.vote.voteType = ty then (rc.votes ty).insert hash a sv else rc.votes ty := by
  unfold RoundCollector.insertVote
  cases h : sv.vote.voteType <;> cases ty <;> simp [RoundCollector.votes]

theorem poolD_insertVote (c : VoteCollector) (hash : Hash) (sv : SignedVote) (a : Address)
    (h r : Nat) (ty : VoteType) :
    poolD (c.insertVote hash sv a) h r ty =
      if sv.vote.height = h ∧ sv.vote.round = r ∧ sv.vote.voteType = ty then
        (poolD c h r ty).insert hash a sv
      else poolD c h r ty := by
  simp only [poolD, VoteCollector.pool, VoteCollector.insertVote, AMap.get?_insert]
  by_cases hh : sv.vote.height = h
  · subst hh
    simp only [if_true, true_and, Option.bind_some, VoteRoundCollector.insertVote, AMap.get?_insert]
    by_cases hr : sv.vote.round = r
    · subst hr
      simp only [if_true, true_and, Option.map_some, Option.getD_some, votes_insertVote]
      cases hc : AMap.get? c sv.vote.height with
      | none =>
        simp [VoteRoundCollector.new]
        cases ty <;> rfl
      | some v =>
        simp only [Option.getD_some, Option.bind_some]
        cases hv : v.general.get? sv.vote.round with
        | none => simp; cases ty <;> rfl
        | some rc => simp
    · simp only [if_neg hr, false_and, if_false]
      cases hc : AMap.get? c sv.vote.height with
      | none => simp [VoteRoundCollector.new, hr]
      | some v => simp [hr]
  · simp [hh]

theorem poolD_setQc (c : VoteCollector) (q : AggregatedVote) (h r : Nat) (ty : VoteType) :
    poolD (c.setQc q) h r ty = poolD c h r ty := by
  simp only [poolD, VoteCollector.pool, VoteCollector.setQc, AMap.get?_insert]
  by_cases hh : q.height = h
  · subst hh
    simp only [if_true, Option.bind_some, VoteRoundCollector.setQc, AMap.get?_insert]
    by_cases hr : q.round = r
    · subst hr
      simp only [if_true, Option.map_some, Option.getD_some]
      cases hc : AMap.get? c q.height with
      | none => simp [VoteRoundCollector.new]; cases ty <;> rfl
      | some v =>
        simp only [Option.getD_some, Option.bind_some]
        cases hv : v.general.get? q.round with
        | none => simp; cases ty <;> rfl
        | some rc => simp [RoundCollector.votes]
    · simp only [if_neg hr]
      cases hc : AMap.get? c q.height with
      | none => simp [VoteRoundCollector.new]
      | some v => simp
  · simp [hh]

/-- The pool represents the function "counted vote of an address". -/
structure PoolInv (vs : Votes) (f : Address → Option SignedVote) : Prop where
  addr : ∀ a, vs.byAddress.get? a = f a
  addrNodup : vs.byAddress.keys.Nodup
  hashNodup : vs.byHash.keys.Nodup
  setNodup : ∀ hash s, vs.byHash.get? hash = some s → s.Nodup ∧ s ≠ []
  mem : ∀ hash a, a ∈ (vs.byHash.get? hash).getD [] ↔ ∃ v, f a = some v ∧ v.vote.blockHash = hash
  voter : ∀ a v, f a = some v → v.voter = a

theorem firstVote_append (ops ops' : List VoteOp) (h r : Nat) (ty : VoteType) (a : Address) :
    firstVote (ops ++ ops') h r ty a =
      (firstVote ops h r ty a).or (firstVote ops' h r ty a) := by
  induction ops with
  | nil => simp [firstVote]
  | cons op ops ih =>
    cases op with
    | qc q => simp only [List.cons_append, firstVote, ih]
    | vote sv =>
      simp only [List.cons_append, firstVote, ih]
      split <;> simp

theorem firstVote_spec {ops : List VoteOp} {h r : Nat} {ty : VoteType} {a : Address} {sv : SignedVote}
    (e : firstVote ops h r ty a = some sv) :
    VoteOp.vote sv ∈ ops ∧ sv.vote.height = h ∧ sv.vote.round = r ∧ sv.vote.voteType = ty ∧
      sv.voter = a := by
  induction ops with
  | nil => simp [firstVote] at e
  | cons op ops ih =>
    cases op with
    | qc q =>
      simp only [firstVote] at e
      have := ih e
      exact ⟨by simp [this.1], this.2⟩
    | vote sv' =>
      simp only [firstVote] at e
      split at e
      · rename_i hc
        simp only [Option.some.injEq] at e
        subst e
        exact ⟨by simp, hc⟩
      · have := ih e
        exact ⟨by simp [this.1], this.2⟩

theorem pool_insert_inv (vs : Votes) (f : Address → Option SignedVote) (h : PoolInv vs f)
    (sv : SignedVote) :
    PoolInv (vs.insert sv.vote.blockHash sv.voter sv)
      (fun a => (f a).or (if sv.voter = a then some sv else none)) := by
  by_cases hc : (f sv.voter).isSome
  · have : vs.insert sv.vote.blockHash sv.voter sv = vs := by
      simp [Votes.insert, AMap.contains, h.addr, hc]
    rw [this]
    have hf : (fun a => (f a).or (if sv.voter = a then some sv else none)) = f := by
      funext a
      by_cases ha : sv.voter = a
      · subst ha
        obtain ⟨v, hv⟩ := Option.isSome_iff_exists.1 hc
        simp [hv]
      · simp [ha]
    rw [hf]; exact h
  · have hnone : f sv.voter = none := by simpa using hc
    have hins : vs.insert sv.vote.blockHash sv.voter sv =
        { byHash := vs.byHash.insert sv.vote.blockHash
            (setInsert ((vs.byHash.get? sv.vote.blockHash).getD []) sv.voter),
          byAddress := vs.byAddress.insert sv.voter sv } := by
      simp [Votes.insert, AMap.contains, h.addr, hnone]
    have hsn : ((vs.byHash.get? sv.vote.blockHash).getD []).Nodup := by
      cases hg : vs.byHash.get? sv.vote.blockHash with
      | none => simp
      | some s => exact (h.setNodup _ _ hg).1
    rw [hins]
    refine ⟨?_, ?_, ?_, ?_, ?_, ?_⟩
    · intro a
      simp only [AMap.get?_insert, h.addr]
      by_cases ha : sv.voter = a
      · subst ha; simp [hnone]
      · simp [ha]
    · exact AMap.nodup_insert _ _ _ h.addrNodup
    · exact AMap.nodup_insert _ _ _ h.hashNodup
    · intro hash s hs
      simp only [AMap.get?_insert] at hs
      split at hs
      · simp only [Option.some.injEq] at hs
        subst hs
        refine ⟨nodup_setInsert _ _ hsn, ?_⟩
        intro he
        have : sv.voter ∈ setInsert ((vs.byHash.get? sv.vote.blockHash).getD []) sv.voter :=
          (mem_setInsert _ _ _).2 (Or.inr rfl)
        rw [he] at this; simp at this
      · exact h.setNodup _ _ hs
    · intro hash a
      simp only [AMap.get?_insert]
      by_cases hh : sv.vote.blockHash = hash
      · subst hh
        simp only [if_true, Option.getD_some, mem_setInsert, h.mem]
        constructor
        · rintro (⟨v, hv, he⟩ | rfl)
          · exact ⟨v, by simp [hv], he⟩
          · exact ⟨sv, by simp [hnone], rfl⟩
        · rintro ⟨v, hv, he⟩
          cases hfa : f a with
          | some w => rw [hfa] at hv; simp at hv; subst hv; exact Or.inl ⟨w, rfl, he⟩
          | none =>
            rw [hfa] at hv
            by_cases ha : sv.voter = a
            · exact Or.inr ha.symm
            · simp [ha] at hv
      · simp only [if_neg hh, h.mem]
        constructor
        · rintro ⟨v, hv, he⟩; exact ⟨v, by simp [hv], he⟩
        · rintro ⟨v, hv, he⟩
          cases hfa : f a with
          | some w => rw [hfa] at hv; simp at hv; subst hv; exact ⟨w, rfl, he⟩
          | none =>
            rw [hfa] at hv
            by_cases ha : sv.voter = a
            · simp [ha] at hv; subst hv; exact absurd he hh
            · simp [ha] at hv
    · intro a v hv
      cases hfa : f a with
      | some w => rw [hfa] at hv; simp at hv; subst hv; exact h.voter _ _ hfa
      | none =>
        rw [hfa] at hv
        by_cases ha : sv.voter = a
        · simp [ha] at hv; rw [← hv]; exact ha
        · simp [ha] at hv

theorem pool_new_inv : PoolInv Votes.new (fun _ => none) := by
  refine ⟨?_, ?_, ?_, ?_, ?_, ?_⟩ <;> simp [Votes.new, AMap.keys]

theorem pool_inv (ops : List VoteOp) (h r : Nat) (ty : VoteType) :
    PoolInv (poolD (ops.foldl applyVoteOp []) h r ty) (firstVote ops h r ty) := by
  suffices H : ∀ (n : Nat) (ops : List VoteOp), ops.length = n →
      PoolInv (poolD (ops.foldl applyVoteOp []) h r ty) (firstVote ops h r ty) from H _ ops rfl
  intro n
  induction n with
  | zero =>
    intro ops hl
    have : ops = [] := List.length_eq_zero_iff.1 hl
    subst this
    exact pool_new_inv
  | succ n ih =>
    intro ops hl
    obtain ⟨init, op, rfl⟩ : ∃ init op, ops = init ++ [op] := by
      rcases List.eq_nil_or_concat ops with h | ⟨a, b, h⟩
      · subst h; simp at hl
      · exact ⟨a, b, by simpa using h⟩
    have hi := ih init (by simpa using hl)
    rw [List.foldl_append, List.foldl_cons, List.foldl_nil]
    have hf : firstVote (init ++ [op]) h r ty =
        fun a => (firstVote init h r ty a).or (firstVote [op] h r ty a) :=
      funext (fun a => firstVote_append init [op] h r ty a)
    rw [hf]
    cases op with
    | qc q =>
      simp only [applyVoteOp, poolD_setQc, firstVote, Option.or_none]
      exact hi
    | vote sv =>
      simp only [applyVoteOp, poolD_insertVote, firstVote]
      by_cases hc : sv.vote.height = h ∧ sv.vote.round = r ∧ sv.vote.voteType = ty
      · rw [if_pos hc]
        have := pool_insert_inv _ _ hi sv
        simpa only [hc.1, hc.2.1, hc.2.2, true_and] using this
      · rw [if_neg hc]
        have : ∀ a, (if sv.vote.height = h ∧ sv.vote.round = r ∧ sv.vote.voteType = ty ∧ sv.voter = a
            then some sv else none) = none := by
          intro a
          rw [if_neg]
          rintro ⟨h1, h2, h3, _⟩
          exact hc ⟨h1, h2, h3⟩
        simp only [this, Option.or_none]
        exact hi

theorem general_nodup (ops : List VoteOp) (h : Nat) (v : VoteRoundCollector)
    (hc : AMap.get? (ops.foldl applyVoteOp []) h = some v) : v.general.keys.Nodup := by
  suffices H : ∀ (c : VoteCollector), (∀ h v, AMap.get? c h = some v → v.general.keys.Nodup) →
      ∀ (h : Nat) (v : VoteRoundCollector), AMap.get? (ops.foldl applyVoteOp c) h = some v → v.general.keys.Nodup from
    H [] (by simp) h v hc
  clear hc h v
  induction ops with
  | nil => intro c hi h v hc; exact hi h v hc
  | cons op ops ih =>
    intro c hi
    simp only [List.foldl_cons]
    apply ih
    intro h v hg
    have hD : ∀ h, ((AMap.get? c h).getD VoteRoundCollector.new).general.keys.Nodup := by
      intro h
      cases hx : AMap.get? c h with
      | none => simp [VoteRoundCollector.new, AMap.keys]
      | some w => exact hi h w hx
    cases op with
    | vote sv =>
      simp only [applyVoteOp, VoteCollector.insertVote, AMap.get?_insert] at hg
      split at hg
      · simp only [Option.some.injEq] at hg
        subst hg
        exact AMap.nodup_insert _ _ _ (hD _)
      · exact hi h v hg
    | qc q =>
      simp only [applyVoteOp, VoteCollector.setQc, AMap.get?_insert] at hg
      split at hg
      · simp only [Option.some.injEq] at hg
        subst hg
        exact AMap.nodup_insert _ _ _ (hD _)
      · exact hi h v hg

/-! ## Reading the pool -/

theorem getVoteMap_pool (c : VoteCollector) (h r : Nat) (ty : VoteType) :
    c.getVoteMap h r ty = if (poolD c h r ty).byHash = [] then .error .storageErr
      else .ok (poolD c h r ty).byHash := by
  unfold VoteCollector.getVoteMap poolD
  cases c.pool h r ty with
  | none => simp [Votes.new]
  | some v => simp

theorem getVotes_pool (sh : Shuffle) (c : VoteCollector) (h r : Nat) (ty : VoteType) (hash : Hash) :
    c.getVotes sh h r ty hash = match (poolD c h r ty).getVotes sh hash with
      | some l => .ok l
      | none => .error .storageErr := by
  unfold VoteCollector.getVotes poolD
  cases c.pool h r ty with
  | none => simp [Votes.new, Votes.getVotes]
  | some v =>
    simp only [Option.bind_some, Option.getD_some]
    cases v.getVotes sh hash <;> rfl

theorem mapM_get {f : Address → Option SignedVote} (l : List Address)
    (h : ∀ a ∈ l, (f a).isSome) (hv : ∀ a v, f a = some v → v.voter = a) :
    ∃ vs, l.mapM f = some vs ∧ vs.map SignedVote.voter = l ∧ ∀ v ∈ vs, f v.voter = some v := by
  induction l with
  | nil => exact ⟨[], by simp⟩
  | cons a l ih =>
    obtain ⟨vs, h1, h2, h3⟩ := ih (fun b hb => h b (by simp [hb]))
    obtain ⟨v, hfv⟩ := Option.isSome_iff_exists.1 (h a (by simp))
    refine ⟨v :: vs, ?_, ?_, ?_⟩
    · simp [List.mapM_cons, hfv, h1]
    · simp [h2, hv a v hfv]
    · intro w hw
      rcases List.mem_cons.1 hw with rfl | hw
      · rw [hv a _ hfv]; exact hfv
      · exact h3 w hw

/-! ## Counting -/

theorem sumWeights32_ok (l : List Node) (hd : Distinct l) (s : List Address)
    (hs : ∀ a ∈ s, a ∈ l.map Node.address) (acc : Nat) (hacc : acc < U32) :
    sumWeights32 (Authority.update l) acc s = .ok ((acc + (s.map (weightIn l)).sum) % U32) := by
  induction s generalizing acc with
  | nil => simp [sumWeights32, Nat.mod_eq_of_lt hacc]
  | cons a s ih =>
    obtain ⟨n, hn, rfl⟩ := List.mem_map.1 (hs a (by simp))
    simp only [sumWeights32, Authority.getVoteWeight, update_weight l hd n hn]
    rw [ih (fun b hb => hs b (by simp [hb])) _ (Nat.mod_lt _ (by decide))]
    simp only [List.map_cons, List.sum_cons, weightIn_mem l hd n hn]
    congr 1
    unfold U32; omega

/-- Weight of a duplicate-free set of validators given as a list. -/
theorem sum_weightIn (l : List Node) (hd : Distinct l) (s : List Address) (hn : s.Nodup)
    (hs : ∀ a ∈ s, a ∈ l.map Node.address) :
    (s.map (weightIn l)).sum = weight l (fun a => decide (a ∈ s)) := by
  have hp : ((l.filter (fun n => decide (n.address ∈ s))).map Node.address).Perm s := by
    refine (List.perm_ext_iff_of_nodup ?_ hn).2 ?_
    · exact (List.Sublist.map _ List.filter_sublist).nodup hd
    · intro a
      simp only [List.mem_map, List.mem_filter, decide_eq_true_eq]
      constructor
      · rintro ⟨n, ⟨_, h⟩, rfl⟩; exact h
      · intro ha
        obtain ⟨n, hn, rfl⟩ := List.mem_map.1 (hs a ha)
        exact ⟨n, ⟨hn, ha⟩, rfl⟩
  rw [sum_perm (hp.symm.map _), weight, List.map_map]
  congr 1
  apply List.map_congr_left
  intro n hn'
  simp [weightIn_mem l hd n (List.mem_filter.1 hn').1]

theorem countLoop_eq (sh : Shuffle) (a : Authority) (m : List (Hash × List Address))
    (w : List Address → Nat)
    (h : ∀ p ∈ m, sumWeights32 a 0 (sh.run p.2) = .ok (w p.2)) :
    countLoop sh a m = .ok ((m.find? (fun p => decide ((w p.2 * 3) % U64 > (a.voteWeightSum * 2) % U64))).map
      Prod.fst) := by
  induction m with
  | nil => simp [countLoop]
  | cons p m ih =>
    obtain ⟨hash, s⟩ := p
    have h0 := h (hash, s) (by simp)
    simp only at h0
    simp only [countLoop, h0, List.find?_cons]
    by_cases hc : (w s * 3) % U64 > (a.voteWeightSum * 2) % U64
    · simp [hc]
    · rw [if_neg hc, ih (fun q hq => h q (by simp [hq]))]
      simp [hc]

theorem find?_congr' {α : Type} (l : List α) (p q : α → Bool) (h : ∀ a ∈ l, p a = q a) :
    l.find? p = l.find? q := by
  induction l with
  | nil => rfl
  | cons a l ih =>
    simp only [List.find?_cons, h a (by simp), ih (fun b hb => h b (by simp [hb]))]

theorem find?_perm_unique {α : Type} (l l' : List α) (h : l.Perm l') (p : α → Bool)
    (hu : ∀ a ∈ l, ∀ b ∈ l, p a = true → p b = true → a = b) : l.find? p = l'.find? p := by
  cases h1 : l.find? p with
  | none =>
    symm
    rw [List.find?_eq_none] at *
    intro x hx
    exact h1 x (h.symm.subset hx)
  | some a =>
    have ha := List.find?_some h1
    have ham := List.mem_of_find?_eq_some h1
    cases h2 : l'.find? p with
    | none =>
      rw [List.find?_eq_none] at h2
      exact absurd ha (h2 a (h.subset ham))
    | some b =>
      rw [hu a ham b (h.symm.subset (List.mem_of_find?_eq_some h2)) ha (List.find?_some h2)]

/-- The set of addresses counted for `hash` is exactly who voted for it. -/
theorem set_weight (ops : List VoteOp) (h r : Nat) (ty : VoteType) (l : List Node)
    (hv : VotersIn ops l) {hash : Hash} {s : List Address}
    (hm : (hash, s) ∈ (poolD (ops.foldl applyVoteOp []) h r ty).byHash) :
    s.Nodup ∧ (∀ a ∈ s, a ∈ l.map Node.address) ∧
    weight l (fun a => decide (a ∈ s)) = weight l (votedFor ops h r ty hash) := by
  have hi := pool_inv ops h r ty
  have hg := AMap.get?_of_mem _ hi.hashNodup hm
  have hmem : ∀ a, a ∈ s ↔ ∃ v, firstVote ops h r ty a = some v ∧ v.vote.blockHash = hash := by
    intro a
    have := hi.mem hash a
    rw [hg] at this
    simpa using this
  refine ⟨(hi.setNodup _ _ hg).1, ?_, ?_⟩
  · intro a ha
    obtain ⟨v, hf, _⟩ := (hmem a).1 ha
    have := firstVote_spec hf
    rw [← this.2.2.2.2]
    exact hv v this.1
  · apply weight_congr
    intro n _
    rw [Bool.eq_iff_iff, decide_eq_true_eq, hmem, votedFor]
    cases firstVote ops h r ty n.address with
    | none => simp
    | some v => simp

/-- `counting_vote` on a pool built by any history: the first hash in iteration order whose voters'
`u32` weight sum is above the threshold. -/
theorem countingVote_eq (sh : Shuffle) (ops : List VoteOp) (h r : Nat) (ty : VoteType) (l : List Node)
    (hd : Distinct l) (hz : Sized l) (hv : VotersIn ops l) :
    countingVote sh (Authority.update l) (ops.foldl applyVoteOp []) h r ty =
      if (poolD (ops.foldl applyVoteOp []) h r ty).byHash = [] then .error .storageErr
      else .ok (((sh.run (poolD (ops.foldl applyVoteOp []) h r ty).byHash).find?
        (fun p => decide (3 * (weight l (votedFor ops h r ty p.1) % U32) > 2 * total l))).map Prod.fst) := by
  unfold countingVote
  rw [getVoteMap_pool]
  by_cases he : (poolD (ops.foldl applyVoteOp []) h r ty).byHash = []
  · simp [he]
  · rw [if_neg he, if_neg he]
    simp only
    have hb := total_bound hz
    rw [countLoop_eq sh _ _ (fun s => (s.map (weightIn l)).sum % U32)]
    · congr 2
      apply find?_congr'
      intro p hp
      have hp' := (sh.perm _).subset hp
      obtain ⟨hn, hin, hw⟩ := set_weight ops h r ty l hv (hash := p.1) (s := p.2) hp'
      rw [sum_weightIn l hd p.2 hn hin, hw, update_voteWeightSum,
        Nat.mod_eq_of_lt (a := total l) (by omega), Nat.mod_eq_of_lt (a := total l * 2) (by omega)]
      have := Nat.mod_le (weight l (votedFor ops h r ty p.1)) U32
      have := weight_le_total l (votedFor ops h r ty p.1)
      rw [Nat.mod_eq_of_lt (a := _ * 3) (by omega), Nat.mul_comm, Nat.mul_comm (total l)]
    · intro p hp
      have hp' := (sh.perm _).subset hp
      obtain ⟨hn, hin, hw⟩ := set_weight ops h r ty l hv (hash := p.1) (s := p.2) hp'
      rw [sumWeights32_ok l hd _ (fun a ha => hin a ((sh.perm _).subset ha)) 0 (by decide),
        Nat.zero_add, sum_perm ((sh.perm p.2).map _)]

end Overlord
