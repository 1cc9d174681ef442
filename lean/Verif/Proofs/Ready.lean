import Verif.Proofs.Carry
import Verif.Proofs.NetGen
import Verif.Props.Node4

/-!
What an order refers to is stored when the State takes it up (used for C53): the State and its inputs.
-/

set_option linter.unusedSimpArgs false
set_option linter.unusedVariables false
set_option linter.unusedSectionVars false
set_option linter.unnecessarySeqFocus false

namespace Overlord
open M Spec

variable {T : Type} [ContentCodec T] [DecidableEq T]

namespace Rdy

/-- The block of this hash is stored. -/
def Known (s : State T) (x : Hash) : Prop := ∃ c, s.hashWithBlock.get? x = some c

/-- A certificate of this type and round is stored. -/
def HasQc (s : State T) (ty : VoteType) (r : Nat) : Prop := ∃ qc, qcId s.votes s.height r ty = some qc

/-- A precommit certificate for this hash is stored. -/
def HasHash (s : State T) (x : Hash) : Prop := ∃ qc, s.votes.getQcByHash s.height x .precommit = some qc

/-- A choke certificate of this round is stored. -/
def HasChoke (s : State T) (r : Nat) : Prop := ∃ qc, s.chokes.getQc r = some qc

/-- Nothing of the height is forgotten. -/
structure Keeps (s s' : State T) : Prop where
  le : s.height ≤ s'.height
  known : s'.height = s.height → ∀ x, Known s x → Known s' x
  qc : s'.height = s.height → ∀ ty r, HasQc s ty r → HasQc s' ty r
  hash : s'.height = s.height → ∀ x, HasHash s x → HasHash s' x
  choke : s'.height = s.height → ∀ r, HasChoke s r → HasChoke s' r

theorem Keeps.refl (s : State T) : Keeps s s := ⟨Nat.le_refl _, fun _ _ h => h, fun _ _ _ h => h, fun _ _ h => h, fun _ _ h => h⟩

theorem Keeps.trans {s s1 s2 : State T} (h : Keeps s s1) (h' : Keeps s1 s2) : Keeps s s2 := by
  have a := h.le
  have b := h'.le
  exact ⟨by omega, fun e x k => h'.known (by omega) x (h.known (by omega) x k), fun e ty r k => h'.qc (by omega) ty r (h.qc (by omega) ty r k),
    fun e x k => h'.hash (by omega) x (h.hash (by omega) x k), fun e r k => h'.choke (by omega) r (h.choke (by omega) r k)⟩

theorem Keeps.up {s s' : State T} (h : s.height < s'.height) : Keeps s s' :=
  ⟨Nat.le_of_lt h, fun e => by omega, fun e => by omega, fun e => by omega, fun e => by omega⟩

/-- Certificates are found by round and by hash. -/
def VLink (c : VoteCollector) : Prop :=
  (∀ k r ty qc, qcId c k r ty = some qc → ∃ q, c.getQcByHash k qc.blockHash ty = some q) ∧
  ∀ k x ty qc, c.getQcByHash k x ty = some qc → ∃ q, qcId c k qc.round ty = some q

theorem VLink.new : VLink [] := by
  constructor
  · intro k r ty qc h; simp [qcId, AMap.get?] at h
  · intro k x ty qc h; simp [VoteCollector.getQcByHash, AMap.get?] at h

theorem VLink.setQc {c : VoteCollector} (h : VLink c) (q : AggregatedVote) : VLink (c.setQc q) := by
  constructor
  · intro k r ty qc hq
    rw [qcId_setQc] at hq
    rw [getQcByHash_setQc]
    split at hq
    · rename_i hc; cases hq; exact ⟨q, by rw [if_pos ⟨hc.1, rfl, hc.2.2⟩]⟩
    · split
      · exact ⟨_, rfl⟩
      · exact h.1 k r ty qc hq
  · intro k x ty qc hq
    rw [getQcByHash_setQc] at hq
    rw [qcId_setQc]
    split at hq
    · rename_i hc; cases hq; exact ⟨q, by rw [if_pos ⟨hc.1, rfl, hc.2.2⟩]⟩
    · split
      · exact ⟨_, rfl⟩
      · exact h.2 k x ty qc hq

theorem VLink.insertVote {c : VoteCollector} (h : VLink c) (x : Hash) (sv : SignedVote) (a : Address) : VLink (c.insertVote x sv a) := by
  constructor
  · intro k r ty qc hq
    rw [qcId_insertVote] at hq
    rw [getQcByHash_insertVote]
    exact h.1 k r ty qc hq
  · intro k y ty qc hq
    rw [getQcByHash_insertVote] at hq
    rw [qcId_insertVote]
    exact h.2 k y ty qc hq

theorem VLink.sub {c c' : VoteCollector} (h : VLink c) (hs : ∀ k, AMap.get? c' k = AMap.get? c k ∨ AMap.get? c' k = none) : VLink c' := by
  constructor
  · intro k r ty qc hq
    rcases hs k with e | e
    · unfold qcId at hq; rw [e] at hq
      unfold VoteCollector.getQcByHash; rw [e]
      exact h.1 k r ty qc hq
    · unfold qcId at hq; rw [e] at hq; simp at hq
  · intro k x ty qc hq
    rcases hs k with e | e
    · unfold VoteCollector.getQcByHash at hq; rw [e] at hq
      unfold qcId; rw [e]
      exact h.2 k x ty qc hq
    · unfold VoteCollector.getQcByHash at hq; rw [e] at hq; simp at hq

theorem VLink.micro {e : Env T} {i : Input T} {s s' : State T} {eff : List (Effect T)} (h : VLink s.votes) (hm : Micro e i s eff s') :
    VLink s'.votes := by
  cases hm with
  | recvQc => exact h.setQc _
  | genQc => exact h.setQc _
  | recvVote => exact h.insertVote ..
  | castVote => dsimp only; split; exacts [h.insertVote .., h]
  | adopt status =>
    refine h.sub fun k => ?_
    dsimp only [State.adopted]
    rw [get?_adopted_votes]
    by_cases h1 : k = status.height
    · exact .inr (by simp [h1])
    · by_cases h2 : status.height - 1 ≤ k
      · exact .inl (by simp [h1, h2])
      · exact .inr (by simp [h1, h2])
  | restoreLock => exact h.setQc _
  | _ => exact h

theorem known_insert {s s' : State T} {x y : Hash} {c : T} (hb : s'.hashWithBlock = s.hashWithBlock.insert y c) (h : Known s x) : Known s' x := by
  obtain ⟨b, h⟩ := h
  unfold Known
  rw [hb, AMap.get?_insert]
  split
  · exact ⟨_, rfl⟩
  · exact ⟨b, h⟩

/-- Nothing is forgotten by a running node. -/
theorem keeps_micro {e : Env T} {i : Input T} {s s' : State T} {eff : List (Effect T)} (hi : i ≠ .start) (hm : Micro e i s eff s') : Keeps s s' := by
  have same : ∀ s1 : State T, s1.height = s.height → s1.hashWithBlock = s.hashWithBlock → s1.votes = s.votes → s1.chokes = s.chokes → Keeps s s1 := by
    intro s1 h1 h2 h3 h4
    refine ⟨by omega, fun _ x h => ?_, fun _ ty r h => ?_, fun _ x h => ?_, fun _ r h => ?_⟩
    · unfold Known at *; rw [h2]; exact h
    · unfold HasQc at *; rw [h1, h3]; exact h
    · unfold HasHash at *; rw [h1, h3]; exact h
    · unfold HasChoke at *; rw [h4]; exact h
  have setq : ∀ q, Keeps s { s with votes := s.votes.setQc q } := by
    intro q
    refine ⟨Nat.le_refl _, fun _ x h => h, fun _ ty r h => ?_, fun _ x h => ?_, fun _ r h => h⟩
    · obtain ⟨qc, h⟩ := h
      unfold HasQc
      dsimp only
      rw [qcId_setQc]
      split
      · exact ⟨_, rfl⟩
      · exact ⟨qc, h⟩
    · obtain ⟨qc, h⟩ := h
      unfold HasHash
      dsimp only
      rw [getQcByHash_setQc]
      split
      · exact ⟨_, rfl⟩
      · exact ⟨qc, h⟩
  have insv : ∀ x sv a, Keeps s { s with votes := s.votes.insertVote x sv a } := by
    intro x sv a
    refine ⟨Nat.le_refl _, fun _ x h => h, fun _ ty r h => ?_, fun _ x h => ?_, fun _ r h => h⟩
    · unfold HasQc at *; dsimp only; rw [qcId_insertVote]; exact h
    · unfold HasHash at *; dsimp only; rw [getQcByHash_insertVote]; exact h
  have chok : ∀ c : ChokeCollector, (∀ r, (∃ qc, s.chokes.getQc r = some qc) → ∃ qc, c.getQc r = some qc) → Keeps s { s with chokes := c } :=
    fun c hc => ⟨Nat.le_refl _, fun _ x h => h, fun _ _ _ h => h, fun _ x h => h, fun _ r h => hc r h⟩
  have chq : ∀ r0 q, ∀ r, (∃ qc, s.chokes.getQc r = some qc) → ∃ qc, (s.chokes.setQc r0 q).getQc r = some qc := by
    intro r0 q r ⟨qc, h⟩
    unfold ChokeCollector.getQc ChokeCollector.setQc at *
    dsimp only
    rw [AMap.get?_insert]
    split
    · exact ⟨_, rfl⟩
    · exact ⟨qc, h⟩
  cases hm with
  | recvQc => exact setq _
  | genQc => exact setq _
  | recvVote => exact insv _ _ _
  | castVote => split; exacts [insv _ _ _, same _ rfl rfl rfl rfl]
  | recvChoke => exact chok _ fun r h => h
  | ownChoke => exact chok _ fun r h => h
  | chokeQuorum => exact chok _ (chq _ _)
  | recvChokeQc => exact chok _ (chq _ _)
  | storeBlock => exact ⟨Nat.le_refl _, fun _ x h => known_insert rfl h, fun _ _ _ h => h, fun _ x h => h, fun _ r h => h⟩
  | ownBlock => exact ⟨Nat.le_refl _, fun _ x h => known_insert rfl h, fun _ _ _ h => h, fun _ x h => h, fun _ r h => h⟩
  | move status _ hh => exact .up hh
  | moveLost status _ _ hh => exact .up hh
  | adopt status _ _ hh => exact .up hh
  | restorePos _ _ h => exact absurd h hi
  | restoreLock _ _ _ h => exact absurd h hi
  | _ => exact same _ rfl rfl rfl rfl

/-- What a trigger of the State refers to is stored. -/
structure TReady (f : Hash → Nat × T) (s : State T) (t : SMRTrigger) : Prop where
  le : t.height ≤ s.height
  high : ∀ st, t.triggerType = .newHeight st → st.height ≤ s.height
  prevote : t.height = s.height → t.triggerType = .prevoteQC → HasQc s .prevote t.round ∧ (t.hash ≠ [] → (f t.hash).1 = t.height → Known s t.hash)
  precommit : t.height = s.height → t.triggerType = .precommitQC → HasQc s .precommit t.round ∧
    (t.hash ≠ [] → HasHash s t.hash ∧ ((f t.hash).1 = t.height → Known s t.hash))
  cont : t.height = s.height → t.triggerType = .continueRound → ∃ r, t.round = inc64 r ∧ HasChoke s r
  wal : t.triggerType = .walInfo → ∀ w, t.walInfo = some w → w.height ≤ s.height ∧
    (w.height = s.height → ∀ l, w.polc = some l → HasQc s .prevote l.round ∧ Known s l.hash)

theorem TReady.keeps {f : Hash → Nat × T} {s s' : State T} {t : SMRTrigger} (k : Keeps s s') (h : TReady f s t) : TReady f s' t := by
  have a := k.le
  have b := h.le
  refine ⟨by omega, fun st e => Nat.le_trans (h.high st e) a, fun e1 e2 => ?_, fun e1 e2 => ?_, fun e1 e2 => ?_, fun e1 w e2 => ?_⟩
  · obtain ⟨h1, h2⟩ := h.prevote (by omega) e2
    exact ⟨k.qc (by omega) _ _ h1, fun g1 g2 => k.known (by omega) _ (h2 g1 g2)⟩
  · obtain ⟨h1, h2⟩ := h.precommit (by omega) e2
    exact ⟨k.qc (by omega) _ _ h1, fun g1 => ⟨k.hash (by omega) _ (h2 g1).1, fun g2 => k.known (by omega) _ ((h2 g1).2 g2)⟩⟩
  · obtain ⟨r, h1, h2⟩ := h.cont (by omega) e2
    exact ⟨r, h1, k.choke (by omega) _ h2⟩
  · obtain ⟨h1, h2⟩ := h.wal e1 w e2
    refine ⟨by omega, fun g1 l g2 => ?_⟩
    obtain ⟨h3, h4⟩ := h2 (by omega) l g2
    exact ⟨k.qc (by omega) _ _ h3, k.known (by omega) _ h4⟩

/-- A block check is for a stored block. -/
def CReady (s : State T) (k : Nat) (x : Hash) : Prop := k ≤ s.height ∧ (k = s.height → Known s x)

theorem CReady.keeps {s s' : State T} {k : Nat} {x : Hash} (hk : Keeps s s') (h : CReady s k x) : CReady s' k x :=
  ⟨Nat.le_trans h.1 hk.le, fun e => hk.known (by have := h.1; have := hk.le; omega) _ (h.2 (by have := h.1; have := hk.le; omega))⟩

/-- The result of a check is for a stored block. -/
def RReady (f : Hash → Nat × T) (s : State T) (r : VerifyResp) : Prop := CReady s r.height r.blockHash ∧ (f r.blockHash).1 = r.height

/-- What the effects refer to is stored. -/
def EffReady (f : Hash → Nat × T) (s : State T) : Effect T → Prop
  | .trigger t => TReady f s t
  | .spawnCheck k _ x _ => CReady s k x
  | _ => True

theorem EffReady.keeps {f : Hash → Nat × T} {s s' : State T} {x : Effect T} (k : Keeps s s') (h : EffReady f s x) : EffReady f s' x := by
  cases x with
  | trigger t => exact TReady.keeps k h
  | spawnCheck a b c d => exact CReady.keeps k h
  | _ => trivial

/-- The State: what was checked is stored; certificates are found by round and by hash. -/
structure StReady (f : Hash → Nat × T) (s : State T) : Prop where
  full : ∀ x b, s.isFullTransaction.get? x = some b → (f x).1 ≤ s.height ∧ ((f x).1 = s.height → Known s x)
  link : VLink s.votes
  filed : Filed s

theorem treadySt {f : Hash → Nat × T} {s : State T} {ty : TriggerType} {x : Hash} {lr : Option Nat} {r : Nat}
    (h0 : ∀ st, ty = .newHeight st → st.height ≤ s.height) (h1 : ty ≠ .prevoteQC) (h2 : ty ≠ .precommitQC)
    (h3 : ty = .continueRound → ∃ r', r = inc64 r' ∧ HasChoke s r') (h4 : ty ≠ .walInfo) : TReady f s (stTrigger ty x lr r s.height) :=
  ⟨Nat.le_refl _, h0, fun _ h => absurd h h1, fun _ h => absurd h h2, fun _ h => h3 h, fun h => absurd h h4⟩

theorem micro_ready {f : Hash → Nat × T} {e : Env T} {i : Input T} {s s' : State T} {eff : List (Effect T)} (hi : i ≠ .start)
    (h : StReady f s) (hr : ∀ r, i = .resp r → RReady f s r) (hm : Micro e i s eff s') :
    StReady f s' ∧ ∀ x ∈ eff, EffReady f s' x := by
  have hk := keeps_micro hi hm
  have hl := VLink.micro h.link hm
  have hf := h.filed.micro hm
  have full : (∀ x b, s'.isFullTransaction.get? x = some b → s.isFullTransaction.get? x = some b) →
      ∀ x b, s'.isFullTransaction.get? x = some b → (f x).1 ≤ s'.height ∧ ((f x).1 = s'.height → Known s' x) := by
    intro h0 x b hb
    obtain ⟨h1, h2⟩ := h.full x b (h0 x b hb)
    have := hk.le
    exact ⟨by omega, fun e => hk.known (by omega) _ (h2 (by omega))⟩
  have trig : ∀ (t : SMRTrigger), TReady f s' t → ∀ x ∈ [Effect.trigger (T := T) t], EffReady f s' x := by
    intro t ht x hx; simp only [List.mem_singleton] at hx; subst hx; exact ht
  cases hm with
  | checked r hi' hh =>
    obtain ⟨⟨g1, g2⟩, g3⟩ := hr r hi'
    refine ⟨⟨fun x b hb => ?_, hl, hf⟩, by simp⟩
    dsimp only at hb ⊢
    rw [AMap.get?_insert] at hb
    split at hb
    · rename_i hx
      subst hx
      exact ⟨by omega, fun _ => g2 hh⟩
    · exact h.full x b hb
  | trigQcId r ty qc hq hfull =>
    have hid := (getQcById_iff ..).1 hq
    obtain ⟨_, _, ety, _⟩ := h.filed.votes.getQcById hq
    refine ⟨⟨full fun _ _ h => h, hl, hf⟩, trig _ ?_⟩
    have hkn : qc.blockHash ≠ [] → (f qc.blockHash).1 = s.height → Known s qc.blockHash := by
      intro hne he
      unfold State.tryGetFullTxs at hfull
      rw [if_neg hne] at hfull
      split at hfull
      · rename_i b hb; exact (h.full _ _ hb).2 he
      · cases hfull
    refine ⟨Nat.le_refl _, fun st hst => ?_, fun _ hty => ⟨?_, hkn⟩, fun _ hty => ⟨?_, fun hne => ⟨?_, hkn hne⟩⟩, fun _ hty => ?_, fun hty => ?_⟩
    · cases hv : qc.voteType <;> simp [stTrigger, VoteType.toTrigger, hv] at hst
    · have : ty = .prevote := by rw [← ety]; cases hv : qc.voteType <;> simp [stTrigger, VoteType.toTrigger, hv] at hty ⊢
      subst this; exact ⟨qc, hid⟩
    · have : ty = .precommit := by rw [← ety]; cases hv : qc.voteType <;> simp [stTrigger, VoteType.toTrigger, hv] at hty ⊢
      subst this; exact ⟨qc, hid⟩
    · have : ty = .precommit := by rw [← ety]; cases hv : qc.voteType <;> simp [stTrigger, VoteType.toTrigger, hv] at hty ⊢
      subst this; exact h.link.1 _ _ _ _ hid
    · cases hv : qc.voteType <;> simp [stTrigger, VoteType.toTrigger, hv] at hty
    · cases hv : qc.voteType <;> simp [stTrigger, VoteType.toTrigger, hv] at hty
  | trigQcHash x ty qc hi' hq hrr =>
    obtain ⟨r, e1, e2, e3⟩ := hi'
    obtain ⟨e4, e5, e6, _⟩ := h.filed.votes.getQcByHash hq
    obtain ⟨⟨g1, g2⟩, g3⟩ := hr r e1
    refine ⟨⟨full fun _ _ h => h, hl, hf⟩, trig _ ?_⟩
    have hkn : Known s qc.blockHash := by rw [e5, ← e2]; exact g2 e3
    refine ⟨Nat.le_of_eq e4, fun st hst => ?_, fun _ hty => ⟨?_, fun _ _ => hkn⟩, fun _ hty => ⟨?_, fun hne => ⟨?_, fun _ => hkn⟩⟩, fun _ hty => ?_, fun hty => ?_⟩
    · cases ty <;> simp [stTrigger, VoteType.toTrigger] at hst
    · cases ty with
      | prevote => exact h.link.2 _ _ _ _ hq
      | precommit => simp [stTrigger, VoteType.toTrigger] at hty
    · cases ty with
      | precommit => exact h.link.2 _ _ _ _ hq
      | prevote => simp [stTrigger, VoteType.toTrigger] at hty
    · cases ty with
      | precommit => exact ⟨qc, by show s.votes.getQcByHash s.height qc.blockHash .precommit = _; rw [e5]; exact hq⟩
      | prevote => simp [stTrigger, VoteType.toTrigger] at hty
    · cases ty <;> simp [stTrigger, VoteType.toTrigger] at hty
    · cases ty <;> simp [stTrigger, VoteType.toTrigger] at hty
  | chokeQuorum round scs sig =>
    refine ⟨⟨full fun _ _ h => h, hl, hf⟩, trig _ (treadySt (by simp) (by simp) (by simp) (fun _ => ⟨round, rfl, ?_⟩) (by simp))⟩
    exact ⟨_, by simp [ChokeCollector.getQc, ChokeCollector.setQc, AMap.get?_insert]; rfl⟩
  | recvChokeQc ac =>
    refine ⟨⟨full fun _ _ h => h, hl, hf⟩, trig _ (treadySt (by simp) (by simp) (by simp) (fun _ => ⟨ac.round, rfl, ?_⟩) (by simp))⟩
    exact ⟨_, by simp [ChokeCollector.getQc, ChokeCollector.setQc, AMap.get?_insert]; rfl⟩
  | acceptProposal sp ps hp hc hpp hh hr' hb hs =>
    refine ⟨⟨full fun _ _ h => h, hl, hf⟩, fun x hx => ?_⟩
    simp only [List.mem_cons, List.not_mem_nil, or_false] at hx
    rcases hx with rfl | rfl
    · rw [hh]; exact treadySt (by simp) (by simp) (by simp) (by simp) (by simp)
    · exact ⟨Nat.le_refl _, fun _ => ⟨_, hb⟩⟩
  | propose sp r lr lp f' hni hr0 hlead hh hr' ha hlk hs hkn =>
    refine ⟨⟨full fun _ _ h => h, hl, hf⟩, fun x hx => ?_⟩
    simp only [List.mem_cons, List.not_mem_nil, or_false] at hx
    rcases hx with rfl | rfl | rfl
    · trivial
    · exact treadySt (by simp) (by simp) (by simp) (by simp) (by simp)
    · exact ⟨Nat.le_refl _, fun _ => hkn⟩
  | adopt status hsv hi' hh hp =>
    refine ⟨⟨full fun _ _ h => h, hl, hf⟩, fun x hx => ?_⟩
    simp only [List.cons_append, List.mem_cons, List.mem_append, List.mem_map, List.not_mem_nil, or_false] at hx
    rcases hx with rfl | ⟨m, hm, rfl⟩ | rfl
    · trivial
    · trivial
    · refine treadySt (s := s.adopted e.sh status) ?_ (by simp) (by simp) (by simp) (by simp)
      intro st he; cases he; exact Nat.le_refl _
  | stop => exact ⟨⟨full fun _ _ h => h, hl, hf⟩, trig _ (treadySt (by simp) (by simp) (by simp) (by simp) (by simp))⟩
  | walLost h' => exact absurd h' hi
  | restorePos _ _ h' => exact absurd h' hi
  | restoreLeader _ _ h' => exact absurd h' hi
  | restoreFrom _ _ h' => exact absurd h' hi
  | restoreLock _ _ _ h' => exact absurd h' hi
  | walTrigger _ _ h' => exact absurd h' hi
  | enterRound =>
    refine ⟨⟨full fun _ _ h => h, hl, hf⟩, fun x hx => ?_⟩
    split at hx
    · cases hx
    · simp only [List.mem_singleton] at hx; subst hx; trivial
  | castVote =>
    refine ⟨⟨full fun _ _ h => h, hl, hf⟩, fun x hx => ?_⟩
    simp only [List.mem_cons, List.not_mem_nil, or_false] at hx
    rcases hx with rfl | rfl
    · trivial
    · split <;> trivial
  | _ => exact ⟨⟨full fun _ _ h => h, hl, hf⟩, by simp [EffReady]⟩

end Rdy
end Overlord
