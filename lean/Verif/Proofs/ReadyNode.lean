import Verif.Proofs.Ready

/-!
What an order refers to is stored when the State takes it up (used for C53): the voting state machine and the channels of a node.
-/

set_option linter.unusedSimpArgs false
set_option linter.unusedVariables false
set_option linter.unusedSectionVars false
set_option linter.unnecessarySeqFocus false

namespace Overlord
open M Spec

variable {T : Type} [ContentCodec T] [DecidableEq T]

namespace Rdy

/-- A lock: its certificate can exist, its block is one of the height; both are stored. -/
def LockRef (f : Hash → Nat × T) (B : Certs) (s : State T) (k l : Nat) (x : Hash) : Prop :=
  B .prevote k l x ∧ (f x).1 = k ∧ (k = s.height → HasQc s .prevote l ∧ Known s x)

/-- The lock an order refers to. -/
def LockRefs (f : Hash → Nat × T) (B : Certs) (s : State T) (k : Nat) (lr : Option Nat) : Prop :=
  ∀ l, lr = some l → ∃ x, LockRef f B s k l x

/-- The certificate that made the machine change its round is stored. -/
def FromRef (s : State T) : FromWhere → Prop
  | .prevoteQC x => HasQc s .prevote x
  | .precommitQC x => x = U64MAX ∨ HasQc s .precommit x
  | .chokeQC x => HasChoke s x

/-- The voting state machine. -/
def SReady (f : Hash → Nat × T) (B : Certs) (s : State T) (m : Smr) : Prop :=
  m.height ≤ s.height ∧ ∀ l, m.lock = some l → m.blockHash = l.hash ∧ LockRef f B s m.height l.round l.hash

/-- Triggers of the State. -/
structure TR (f : Hash → Nat × T) (B : Certs) (s : State T) (t : SMRTrigger) : Prop where
  ready : TReady f s t
  cert : TrigCert B t
  fit : t.source = .state → t.triggerType = .proposal ∨ t.triggerType = .prevoteQC ∨ t.triggerType = .precommitQC → t.hash ≠ [] →
    (f t.hash).1 = t.height
  wal : t.triggerType = .walInfo → ∀ w l, t.walInfo = some w → w.polc = some l → LockRef f B s w.height l.round l.hash

/-- Orders. -/
def EReady (f : Hash → Nat × T) (B : Certs) (s : State T) : SMREvent → Prop
  | .newRoundInfo k r lr lp fr _ _ => k ≤ s.height ∧
      ((lr = none ∧ lp = none) ∨ ∃ l x, lr = some l ∧ lp = some x ∧ LockRef f B s k l x) ∧ (k = s.height → FromRef s fr)
  | .prevoteVote k r x lr => k ≤ s.height ∧ (x ≠ [] → (f x).1 = k) ∧ LockRefs f B s k lr
  | .precommitVote k r x lr => k ≤ s.height ∧ (x ≠ [] → (f x).1 = k) ∧ LockRefs f B s k lr
  | .brake k r lr => k ≤ s.height ∧ LockRefs f B s k lr
  | .commit x => x ≠ [] ∧ (f x).1 ≤ s.height ∧ ((f x).1 = s.height → HasHash s x ∧ Known s x)
  | .stop => True

theorem LockRef.keeps {f : Hash → Nat × T} {B B' : Certs} {s s' : State T} {k l : Nat} {x : Hash}
    (hB : ∀ ty k r x, B ty k r x → B' ty k r x) (hk : Keeps s s') (hle : k ≤ s.height) (h : LockRef f B s k l x) : LockRef f B' s' k l x := by
  have := hk.le
  refine ⟨hB _ _ _ _ h.1, h.2.1, fun e => ?_⟩
  obtain ⟨h1, h2⟩ := h.2.2 (by omega)
  exact ⟨hk.qc (by omega) _ _ h1, hk.known (by omega) _ h2⟩

theorem LockRefs.keeps {f : Hash → Nat × T} {B B' : Certs} {s s' : State T} {k : Nat} {lr : Option Nat}
    (hB : ∀ ty k r x, B ty k r x → B' ty k r x) (hk : Keeps s s') (hle : k ≤ s.height) (h : LockRefs f B s k lr) : LockRefs f B' s' k lr :=
  fun l hl => let ⟨x, hx⟩ := h l hl; ⟨x, hx.keeps hB hk hle⟩

theorem FromRef.keeps {s s' : State T} {fr : FromWhere} (hk : Keeps s s') (e : s'.height = s.height) (h : FromRef s fr) : FromRef s' fr := by
  cases fr with
  | prevoteQC x => exact hk.qc e _ _ h
  | precommitQC x => exact h.imp id (hk.qc e _ _)
  | chokeQC x => exact hk.choke e _ h

theorem SReady.keeps {f : Hash → Nat × T} {B B' : Certs} {s s' : State T} {m : Smr}
    (hB : ∀ ty k r x, B ty k r x → B' ty k r x) (hk : Keeps s s') (h : SReady f B s m) : SReady f B' s' m :=
  ⟨Nat.le_trans h.1 hk.le, fun l hl => ⟨(h.2 l hl).1, (h.2 l hl).2.keeps hB hk h.1⟩⟩

theorem TR.keeps {f : Hash → Nat × T} {B B' : Certs} {s s' : State T} {t : SMRTrigger}
    (hB : ∀ ty k r x, B ty k r x → B' ty k r x) (hk : Keeps s s') (h : TR f B s t) : TR f B' s' t :=
  ⟨h.ready.keeps hk, h.cert.mono hB, h.fit, fun e w l e1 e2 => (h.wal e w l e1 e2).keeps hB hk (h.ready.wal e w e1).1⟩

theorem EReady.keeps {f : Hash → Nat × T} {B B' : Certs} {s s' : State T} {ev : SMREvent}
    (hB : ∀ ty k r x, B ty k r x → B' ty k r x) (hk : Keeps s s') (h : EReady f B s ev) : EReady f B' s' ev := by
  have hle := hk.le
  cases ev with
  | newRoundInfo k r lr lp fr ni nc =>
    obtain ⟨h1, h2, h3⟩ := h
    refine ⟨by omega, h2.imp id ?_, fun e => ?_⟩
    · rintro ⟨l, x, e1, e2, e3⟩
      exact ⟨l, x, e1, e2, e3.keeps hB hk h1⟩
    · exact FromRef.keeps hk (by omega) (h3 (by omega))
  | prevoteVote k r x lr => exact ⟨Nat.le_trans h.1 hle, h.2.1, h.2.2.keeps hB hk h.1⟩
  | precommitVote k r x lr => exact ⟨Nat.le_trans h.1 hle, h.2.1, h.2.2.keeps hB hk h.1⟩
  | brake k r lr => exact ⟨Nat.le_trans h.1 hle, h.2.keeps hB hk h.1⟩
  | commit x =>
    obtain ⟨h1, h2, h3⟩ := h
    refine ⟨h1, by omega, fun e => ?_⟩
    obtain ⟨h4, h5⟩ := h3 (by omega)
    exact ⟨hk.hash (by omega) _ h4, hk.known (by omega) _ h5⟩
  | stop => trivial

/-- The voting state machine only refers to what is stored. -/
theorem ready_smr {f : Hash → Nat × T} {B : Certs} {s : State T} (hU : ∀ r, HasChoke s r → r < 2 ^ 64) (m : Smr) (t : SMRTrigger)
    (hm : SReady f B s m) (ht' : t.source = .state ∨ t.walInfo ≠ none → TR f B s t) :
    SReady f B s (m.onTrigger t).next ∧ ∀ ev ∈ (m.onTrigger t).outs.filterMap Out.toState, EReady f B s ev := by
  have hc := smr_case m t
  have refs : LockRefs f B s m.height m.lockRound := by
    intro l hl
    unfold Smr.lockRound at hl
    obtain ⟨k, h1, rfl⟩ := Option.map_eq_some_iff.1 hl
    exact ⟨_, (hm.2 k h1).2⟩
  have same : ∀ m1 : Smr, m1.height = m.height → m1.lock = m.lock → (∀ l, m.lock = some l → m1.blockHash = m.blockHash) → SReady f B s m1 := by
    intro m1 e1 e2 e3
    refine ⟨by rw [e1]; exact hm.1, fun l hl => ?_⟩
    rw [e2] at hl
    rw [e3 l hl, e1]
    exact hm.2 l hl
  have both : (m.lockRound = none ∧ m.lockProposal = none) ∨ ∃ l x, m.lockRound = some l ∧ m.lockProposal = some x ∧ LockRef f B s m.height l x := by
    unfold Smr.lockRound Smr.lockProposal
    cases hl : m.lock with
    | none => exact .inl ⟨rfl, rfl⟩
    | some l => exact .inr ⟨l.round, l.hash, rfl, rfl, (hm.2 l hl).2⟩
  have polc : t.triggerType = .prevoteQC → t.source = .state → t.height = m.height → t.hash ≠ [] →
      LockRef f B s m.height t.round t.hash := by
    intro h1 h2 h3 h4
    have ht := ht' (.inl h2)
    have hf := ht.fit h2 (.inr (.inl h1)) h4
    refine ⟨by rw [← h3]; exact (ht.cert h2).2.1 h1, by rw [hf, h3], fun e => ?_⟩
    obtain ⟨g1, g2⟩ := ht.ready.prevote (h3.trans e) h1
    exact ⟨g1, g2 h4 hf⟩
  have polcS : ∀ m1 : Smr, t.triggerType = .prevoteQC → t.source = .state → t.height = m.height → m1.height = m.height →
      m1.lock = (m.updatePolc t.hash t.round).lock → m1.blockHash = t.hash → SReady f B s m1 := by
    intro m1 h1 h2 h3 e1 e2 e3
    refine ⟨by rw [e1]; exact hm.1, fun l hl => ?_⟩
    rw [e2, updatePolc_lock] at hl
    split at hl
    · cases hl
    · rename_i hne
      cases hl
      rw [e3, e1]
      exact ⟨rfl, polc h1 h2 h3 hne⟩
  have polcR : t.triggerType = .prevoteQC → t.source = .state → t.height = m.height →
      LockRefs f B s m.height (m.updatePolc t.hash t.round).lockRound := by
    intro h1 h2 h3 l hl
    unfold Smr.lockRound at hl
    rw [updatePolc_lock] at hl
    split at hl
    · cases hl
    · rename_i hne
      cases hl
      exact ⟨_, polc h1 h2 h3 hne⟩
  generalize m.onTrigger t = o at *
  cases hc with
  | quiet res => exact ⟨hm, by simp⟩
  | newHeight st h1 hs hlt =>
    have ht := ht' (.inl hs)
    have := ht.ready.high st h1
    refine ⟨⟨this, fun l hl => by cases hl⟩, ?_⟩
    simp only [Out.toState, List.filterMap_cons, List.filterMap_nil, List.mem_singleton]
    rintro ev rfl
    exact ⟨this, .inl ⟨rfl, rfl⟩, fun _ => .inl rfl⟩
  | propTimer h1 hs h2 h3 hst =>
    refine ⟨same _ rfl rfl fun _ _ => rfl, ?_⟩
    simp only [Out.toState, List.filterMap_cons, List.filterMap_nil, List.mem_singleton]
    rintro ev rfl
    refine ⟨hm.1, fun hne => ?_, refs⟩
    unfold Smr.lockProposal at hne ⊢
    cases hl : m.lock with
    | none => rw [hl] at hne; exact absurd rfl hne
    | some l => exact (hm.2 l hl).2.2.1
  | propState s1 h1 hs h2 h3 hst hne hacc =>
    have ht := ht' (.inl hs)
    obtain ⟨a1, a2, a3, a4⟩ := accept_spec hacc
    rcases a4 with ⟨b1, b2, b3⟩ | ⟨b1, b2, b3⟩
    · refine ⟨same _ a1 b1 fun _ _ => b2, ?_⟩
      simp only [Out.toState, List.filterMap_cons, List.filterMap_nil, List.mem_singleton]
      rintro ev rfl
      have e : s1.lockRound = m.lockRound := by unfold Smr.lockRound; rw [b1]
      rw [a1, e, b2]
      refine ⟨hm.1, fun _ => ?_, refs⟩
      cases hl : m.lock with
      | none => exact absurd hl b3
      | some l => rw [(hm.2 l hl).1]; exact (hm.2 l hl).2.2.1
    · refine ⟨⟨by rw [a1]; exact hm.1, fun l hl => by rw [b1] at hl; cases hl⟩, ?_⟩
      simp only [Out.toState, List.filterMap_cons, List.filterMap_nil, List.mem_singleton]
      rintro ev rfl
      refine ⟨by rw [a1]; exact hm.1, fun _ => ?_, fun l hl => ?_⟩
      · rw [b2, a1, ht.fit hs (.inl h1) hne, h2]
      · unfold Smr.lockRound at hl; rw [b1] at hl; cases hl
  | prevoteTimer b h1 hs h2 h3 hst hb =>
    refine ⟨same _ rfl rfl fun l hl => ?_, ?_⟩
    · rcases hb with ⟨hb, _⟩ | ⟨_, hb⟩
      · rw [hb] at hl; cases hl
      · exact hb
    · simp only [Out.toState, List.filterMap_cons, List.filterMap_nil, List.mem_singleton]
      rintro ev rfl
      exact ⟨hm.1, fun h => absurd rfl h, refs⟩
  | prevoteSame h1 hs h2 h3 hst =>
    have ht := ht' (.inl hs)
    refine ⟨polcS _ h1 hs h2 (updatePolc_height ..) rfl (updatePolc_blockHash ..), ?_⟩
    simp only [Out.toState, List.filterMap_cons, List.filterMap_nil, List.mem_singleton]
    rintro ev rfl
    exact ⟨hm.1, fun hne => by rw [ht.fit hs (.inr (.inl h1)) hne, h2], polcR h1 hs h2⟩
  | prevoteSkip h1 hs h2 h3 =>
    have ht := ht' (.inl hs)
    refine ⟨polcS _ h1 hs h2 (updatePolc_height ..) rfl (updatePolc_blockHash ..), ?_⟩
    simp only [Out.toState, List.filterMap_cons, List.filterMap_nil, List.mem_cons, List.not_mem_nil, or_false]
    rintro ev (rfl | rfl)
    · refine ⟨hm.1, ?_, fun e => (ht.ready.prevote (h2.trans e) h1).1⟩
      unfold Smr.lockRound Smr.lockProposal
      rw [updatePolc_lock]
      by_cases hne : t.hash = []
      · exact .inl (by simp [hne])
      · exact .inr ⟨t.round, t.hash, by simp [hne], by simp [hne], polc h1 hs h2 hne⟩
    · exact ⟨hm.1, fun hne => by rw [ht.fit hs (.inr (.inl h1)) hne, h2], polcR h1 hs h2⟩
  | precommitTimer h1 hs h2 h3 hst =>
    refine ⟨same _ rfl rfl fun _ _ => rfl, ?_⟩
    simp only [Out.toState, List.filterMap_cons, List.filterMap_nil, List.mem_singleton]
    rintro ev rfl
    exact ⟨hm.1, refs⟩
  | precommitNil h1 hs h2 h3 hst hn =>
    have ht := ht' (.inl hs)
    refine ⟨same _ rfl rfl fun _ _ => rfl, ?_⟩
    simp only [Out.toState, List.filterMap_cons, List.filterMap_nil, List.mem_singleton]
    rintro ev rfl
    exact ⟨hm.1, both, fun e => .inr (ht.ready.precommit (h2.trans e) h1).1⟩
  | commit h1 hs h2 hst hn =>
    have ht := ht' (.inl hs)
    refine ⟨same _ rfl rfl fun _ _ => rfl, ?_⟩
    simp only [Out.toState, List.filterMap_cons, List.filterMap_nil, List.mem_singleton]
    rintro ev rfl
    have hf := ht.fit hs (.inr (.inr h1)) hn
    refine ⟨hn, by rw [hf]; exact ht.ready.le, fun e => ?_⟩
    obtain ⟨g1, g2⟩ := (ht.ready.precommit (hf.symm.trans e) h1).2 hn
    exact ⟨g1, g2 hf⟩
  | brake h1 hs h2 h3 =>
    refine ⟨hm, ?_⟩
    simp only [Out.toState, List.filterMap_cons, List.filterMap_nil, List.mem_singleton]
    rintro ev rfl
    exact ⟨hm.1, refs⟩
  | cont h1 hs h2 h3 =>
    have ht := ht' (.inl hs)
    refine ⟨same _ rfl rfl fun _ _ => rfl, ?_⟩
    simp only [Out.toState, List.filterMap_cons, List.filterMap_nil, List.mem_singleton]
    rintro ev rfl
    refine ⟨hm.1, both, fun e => ?_⟩
    obtain ⟨r, g1, g2⟩ := ht.ready.cont (h2.trans e) h1
    have hr := hU r g2
    have : t.round - 1 = r := by
      unfold inc64 U64 at g1
      omega
    show HasChoke s (t.round - 1)
    rw [this]; exact g2
  | wal w h1 h2 =>
    have ht := ht' (.inr (by simp [h2]))
    unfold Smr.handleWal
    dsimp only
    have key : ∀ (s1 : Smr), s1.height = w.height → s1.lock = w.polc → (∀ l, w.polc = some l → s1.blockHash = l.hash) → SReady f B s s1 := by
      intro s1 e1 e2 e3
      refine ⟨by rw [e1]; exact (ht.ready.wal h1 w h2).1, fun l hl => ?_⟩
      rw [e2] at hl
      rw [e1]
      exact ⟨e3 l hl, ht.wal h1 w l h2 hl⟩
    split <;> refine ⟨key _ rfl rfl (fun l hl => by simp [hl]), ?_⟩ <;> simp [Out.toState]
  | stop h1 => exact ⟨hm, by simp [Out.toState, EReady]⟩

end Rdy
end Overlord
