import Verif.Proofs.Agree

/-! The lock of the voting state machine justifies the votes it orders (used for C43, C44). -/

set_option linter.unusedSimpArgs false
set_option linter.unusedVariables false
set_option linter.unusedSectionVars false
set_option linter.unnecessarySeqFocus false

namespace Overlord
open Spec

/-- A precommit of `x` in round `r` is remembered by the lock round `lr`, or there is evidence against `x`. -/
def Covers (B : Certs) (H : Nat) (x : Hash) (r : Nat) (lr : Option Nat) : Prop :=
  Evid B H x r ∨ ∃ l, lr = some l ∧ r ≤ l + 1 ∧ B .prevote H l x

/-- One prevote certificate per height and round. -/
def Uniq (B : Certs) : Prop := ∀ k r x y, B .prevote k r x → B .prevote k r y → x = y

/-- What the State says in a trigger. -/
def TrigCert (B : Certs) (t : SMRTrigger) : Prop :=
  t.source = .state →
    (t.triggerType = .proposal → ∀ lr, t.lockRound = some lr → ∃ z, B .prevote t.height lr z) ∧
    (t.triggerType = .prevoteQC → B .prevote t.height t.round t.hash) ∧
    (t.triggerType = .precommitQC → B .precommit t.height t.round t.hash)

/-- The lock of the machine comes from a certificate. -/
def SmrOk (B : Certs) (m : Smr) : Prop :=
  ∀ l, m.lock = some l → m.blockHash = l.hash ∧ B .prevote m.height l.round l.hash

/-- What the machine says in an event. -/
def EvOk (B : Certs) : SMREvent → Prop
  | .newRoundInfo h _ lr _ _ _ _ => ∀ l, lr = some l → ∃ z, B .prevote h l z
  | .commit x => x ≠ []
  | _ => True

/-- The trigger does not remove the lock because of a certificate for the locked block. -/
def NoSelf (B : Certs) (m : Smr) (t : SMRTrigger) : Prop :=
  ∀ l lr, t.triggerType = .proposal → t.source = .state → t.height = m.height → t.round = m.round →
    m.lock = some l → t.lockRound = some lr → l.round < lr → ¬ B .prevote m.height lr l.hash

/-- The machine `m` remembers the precommits `D`. -/
def Remembers (B : Certs) (H : Nat) (D : Hash → Nat → Prop) (m : Smr) : Prop :=
  ∀ x r, D x r → x ≠ [] ∧ Covers B H x r m.lockRound ∧ r ≤ m.round

/-- The pending events `evs` of height `H` order justified votes, for a node that has precommitted `D` and whose votes are at
most at `p`; in the end the machine `m` remembers all precommits. -/
def LChain (B : Certs) (H : Nat) : (Hash → Nat → Prop) → Pos → List SMREvent → Smr → Prop
  | D, _, [], m => Remembers B H D m
  | D, p, .newRoundInfo h r' lr _ _ _ _ :: evs, m =>
    if h = H then (∀ x r, D x r → Covers B H x r lr) ∧ LChain B H D ⟨H, r', 0⟩ evs m else LChain B H D p evs m
  | D, p, .prevoteVote h r' z lr :: evs, m =>
    if h = H then (∀ x r, D x r → Covers B H x r lr ∧ (z ≠ x → Evid B H x r)) ∧ LChain B H D ⟨H, r', 1⟩ evs m
    else LChain B H D p evs m
  | D, p, .precommitVote h r' z lr :: evs, m =>
    if h = H then
      (∀ x r, D x r → Covers B H x r lr) ∧
      (z ≠ [] → Covers B H z r' lr ∧ (B .prevote H r' z ∨ ∃ q, r' = q + 1 ∧ B .prevote H q z ∧ Pos.le p ⟨H, r', 0⟩)) ∧
      LChain B H (fun x r => D x r ∨ (x = z ∧ r = r' ∧ z ≠ [])) ⟨H, r', 2⟩ evs m
    else LChain B H D p evs m
  | D, p, .brake h _ lr :: evs, m =>
    if h = H then (∀ x r, D x r → Covers B H x r lr) ∧ LChain B H D p evs m else LChain B H D p evs m
  | D, p, .commit _ :: evs, m => LChain B H D p evs m
  | D, p, .stop :: evs, m => LChain B H D p evs m

theorem Evid.mono {B B' : Certs} (hB : ∀ ty k r x, B ty k r x → B' ty k r x) {H : Nat} {x : Hash} {r : Nat}
    (h : Evid B H x r) : Evid B' H x r := let ⟨ρ, z, a, b, c⟩ := h; ⟨ρ, z, a, b, hB _ _ _ _ c⟩

theorem Covers.mono {B B' : Certs} (hB : ∀ ty k r x, B ty k r x → B' ty k r x) {H : Nat} {x : Hash} {r : Nat} {lr : Option Nat}
    (h : Covers B H x r lr) : Covers B' H x r lr :=
  h.imp (Evid.mono hB) fun ⟨l, a, b, c⟩ => ⟨l, a, b, hB _ _ _ _ c⟩

theorem TrigCert.mono {B B' : Certs} (hB : ∀ ty k r x, B ty k r x → B' ty k r x) {t : SMRTrigger} (h : TrigCert B t) : TrigCert B' t :=
  fun hs => ⟨fun a lr b => let ⟨z, c⟩ := (h hs).1 a lr b; ⟨z, hB _ _ _ _ c⟩, fun a => hB _ _ _ _ ((h hs).2.1 a),
    fun a => hB _ _ _ _ ((h hs).2.2 a)⟩

theorem SmrOk.mono {B B' : Certs} (hB : ∀ ty k r x, B ty k r x → B' ty k r x) {m : Smr} (h : SmrOk B m) : SmrOk B' m :=
  fun l hl => ⟨(h l hl).1, hB _ _ _ _ (h l hl).2⟩

theorem EvOk.mono {B B' : Certs} (hB : ∀ ty k r x, B ty k r x → B' ty k r x) {ev : SMREvent} (h : EvOk B ev) : EvOk B' ev := by
  cases ev with
  | newRoundInfo a b lr => exact fun l hl => let ⟨z, c⟩ := h l hl; ⟨z, hB _ _ _ _ c⟩
  | commit x => exact h
  | _ => trivial

theorem LChain.mono {B B' : Certs} (hB : ∀ ty k r x, B ty k r x → B' ty k r x) {H : Nat} {m : Smr} :
    ∀ (evs : List SMREvent) (D D' : Hash → Nat → Prop) (p : Pos), (∀ x r, D' x r → D x r) → LChain B H D p evs m →
      LChain B' H D' p evs m := by
  intro evs
  induction evs with
  | nil => intro D D' p hD h x r hd; obtain ⟨a, b, c⟩ := h x r (hD x r hd); exact ⟨a, b.mono hB, c⟩
  | cons ev evs ih =>
    intro D D' p hD h
    cases ev <;> simp only [LChain] at h ⊢
    · split at h
      · rename_i hh; rw [if_pos hh]; exact ⟨fun x r hd => (h.1 x r (hD x r hd)).mono hB, ih _ _ _ hD h.2⟩
      · rename_i hh; rw [if_neg hh]; exact ih _ _ _ hD h
    · split at h
      · rename_i hh; rw [if_pos hh]
        exact ⟨fun x r hd => ⟨(h.1 x r (hD x r hd)).1.mono hB, fun hz => ((h.1 x r (hD x r hd)).2 hz).mono hB⟩, ih _ _ _ hD h.2⟩
      · rename_i hh; rw [if_neg hh]; exact ih _ _ _ hD h
    · split at h
      · rename_i hh; rw [if_pos hh]
        refine ⟨fun x r hd => (h.1 x r (hD x r hd)).mono hB, fun hz => ?_, ih _ _ _ (fun x r => Or.imp (hD x r) id) h.2.2⟩
        refine ⟨(h.2.1 hz).1.mono hB, (h.2.1 hz).2.imp (hB _ _ _ _) ?_⟩
        rintro ⟨q, a, b, c⟩; exact ⟨q, a, hB _ _ _ _ b, c⟩
      · rename_i hh; rw [if_neg hh]; exact ih _ _ _ hD h
    · exact ih _ _ _ hD h
    · split at h
      · rename_i hh; rw [if_pos hh]; exact ⟨fun x r hd => (h.1 x r (hD x r hd)).mono hB, ih _ _ _ hD h.2⟩
      · rename_i hh; rw [if_neg hh]; exact ih _ _ _ hD h
    · exact ih _ _ _ hD h

theorem lchain_append {B : Certs} {H : Nat} {evs' : List SMREvent} {m m' : Smr} :
    ∀ (evs : List SMREvent) (D : Hash → Nat → Prop) (p : Pos), LChain B H D p evs m →
      (∀ D p, Remembers B H D m → LChain B H D p evs' m') → LChain B H D p (evs ++ evs') m' := by
  intro evs
  induction evs with
  | nil => intro D p h hk; exact hk D p h
  | cons ev evs ih =>
    intro D p h hk
    cases ev <;> simp only [LChain, List.cons_append] at h ⊢
    · split at h
      · rename_i hh; rw [if_pos hh]; exact ⟨h.1, ih _ _ h.2 hk⟩
      · rename_i hh; rw [if_neg hh]; exact ih _ _ h hk
    · split at h
      · rename_i hh; rw [if_pos hh]; exact ⟨h.1, ih _ _ h.2 hk⟩
      · rename_i hh; rw [if_neg hh]; exact ih _ _ h hk
    · split at h
      · rename_i hh; rw [if_pos hh]; exact ⟨h.1, h.2.1, ih _ _ h.2.2 hk⟩
      · rename_i hh; rw [if_neg hh]; exact ih _ _ h hk
    · exact ih _ _ h hk
    · split at h
      · rename_i hh; rw [if_pos hh]; exact ⟨h.1, ih _ _ h.2 hk⟩
      · rename_i hh; rw [if_neg hh]; exact ih _ _ h hk
    · exact ih _ _ h hk

/-- A lock that covers a precommit is for its block. -/
theorem covers_lock {B : Certs} (hu : Uniq B) {m : Smr} (hm : SmrOk B m) {x : Hash} {r : Nat} (h : Covers B m.height x r m.lockRound) :
    Evid B m.height x r ∨ ∃ l, m.lock = some l ∧ l.hash = x ∧ r ≤ l.round + 1 := by
  rcases h with h | ⟨l, h1, h2, h3⟩
  · exact .inl h
  · obtain ⟨l', h4, rfl⟩ := Option.map_eq_some_iff.1 h1
    exact .inr ⟨l', h4, hu _ _ _ _ (hm l' h4).2 h3, h2⟩

/-- One iteration of the machine at the same height. -/
theorem lchain_smr {B : Certs} (hu : Uniq B) {m : Smr} {t : SMRTrigger} (hw : NotWal t) (hr : t.round < 2 ^ 64 - 1)
    (hh : (m.onTrigger t).next.height = m.height) (ht : TrigCert B t) (hm : SmrOk B m) (hn : NoSelf B m t)
    {D : Hash → Nat → Prop} {p : Pos} (hD : Remembers B m.height D m) :
    LChain B m.height D p ((m.onTrigger t).outs.filterMap Out.toState) (m.onTrigger t).next := by
  have hc := smr_case m t
  have key : ∀ x r, D x r → Evid B m.height x r ∨ ∃ l, m.lock = some l ∧ l.hash = x ∧ r ≤ l.round + 1 :=
    fun x r hd => covers_lock hu hm (hD x r hd).2.1
  have same : ∀ m' : Smr, m'.lock = m.lock → m.round ≤ m'.round → Remembers B m.height D m' := by
    intro m' h1 h2 x r hd
    obtain ⟨a, b, c⟩ := hD x r hd
    refine ⟨a, ?_, by omega⟩
    unfold Smr.lockRound; rw [h1]; exact b
  -- the machine locks on a certificate
  have lockOn : ∀ (z : Hash) (ρ : Nat), B .prevote m.height ρ z → m.round ≤ ρ → ∀ x r, D x r →
      Covers B m.height x r (m.updatePolc z ρ).lockRound := by
    intro z ρ hz hle x r hd
    obtain ⟨a, b, c⟩ := hD x r hd
    by_cases hx : z = x
    · subst hx
      refine .inr ⟨ρ, ?_, by omega, hz⟩
      simp [Smr.lockRound, updatePolc_lock, a]
    · exact .inl ⟨ρ, z, by omega, hx, hz⟩
  generalize m.onTrigger t = o at *
  cases hc with
  | quiet res => exact hD
  | newHeight st h1 hs hlt => simp only at hh; omega
  | propTimer h1 hs h2 h3 hst =>
    simp only [Out.toState, List.filterMap_cons, List.filterMap_nil, LChain, if_true]
    refine ⟨fun x r hd => ⟨(hD x r hd).2.1, fun hz => ?_⟩, same _ rfl (Nat.le_refl _)⟩
    rcases key x r hd with h | ⟨l, e1, e2, e3⟩
    · exact h
    · exact absurd (by simp [Smr.lockProposal, e1, e2]) hz
  | propState s1 h1 hs h2 h3 hst hne hacc =>
    obtain ⟨a1, a2, a3, a4⟩ := accept_spec hacc
    simp only [Out.toState, List.filterMap_cons, List.filterMap_nil, LChain, a1, if_true]
    rcases a4 with ⟨b1, b2, b3⟩ | ⟨b1, b2, b3⟩
    · refine ⟨fun x r hd => ?_, same _ b1 (Nat.le_of_eq a2.symm)⟩
      have e : s1.lockRound = m.lockRound := by unfold Smr.lockRound; rw [b1]
      rw [e, b2]
      refine ⟨(hD x r hd).2.1, fun hz => ?_⟩
      rcases key x r hd with h | ⟨l, e1, e2, e3⟩
      · exact h
      · exact absurd (by rw [(hm l e1).1, e2]) hz
    · have all : ∀ x r, D x r → Evid B m.height x r := by
        intro x r hd
        rcases key x r hd with h | ⟨l, e1, e2, e3⟩
        · exact h
        · rcases b3 with b3 | ⟨l', r', b4, b5, b6⟩
          · rw [b3] at e1; cases e1
          · obtain rfl := Option.some.inj (b4.symm.trans e1)
            obtain ⟨z, hz⟩ := (ht hs).1 h1 r' b5
            rw [h2] at hz
            refine ⟨r', z, by omega, ?_, hz⟩
            rintro rfl
            exact hn l' r' h1 hs h2 h3 b4 b5 b6 (by rw [e2]; exact hz)
      refine ⟨fun x r hd => ⟨.inl (all x r hd), fun _ => all x r hd⟩, fun x r hd => ?_⟩
      exact ⟨(hD x r hd).1, .inl (all x r hd), by rw [show ({ s1 with step := .prevote } : Smr).round = m.round from a2]; exact (hD x r hd).2.2⟩
  | prevoteTimer b h1 hs h2 h3 hst hb =>
    simp only [Out.toState, List.filterMap_cons, List.filterMap_nil, LChain, if_true]
    refine ⟨fun x r hd => (hD x r hd).2.1, by simp, ?_⟩
    intro x r hd
    rcases hd with hd | ⟨_, _, hd⟩
    · exact same { m with step := .precommit, blockHash := b } rfl (Nat.le_refl _) x r hd
    · exact absurd rfl hd
  | prevoteSame h1 hs h2 h3 hst =>
    have hq := (ht hs).2.1 h1
    rw [h2] at hq
    have hle : m.round ≤ t.round := Nat.le_of_eq h3.symm
    simp only [Out.toState, List.filterMap_cons, List.filterMap_nil, LChain, if_true]
    have own : t.hash ≠ [] → Covers B m.height t.hash m.round (m.updatePolc t.hash t.round).lockRound := by
      intro hz
      refine .inr ⟨t.round, by simp [Smr.lockRound, updatePolc_lock, hz], by omega, hq⟩
    refine ⟨lockOn _ _ hq hle, fun hz => ⟨own hz, .inl (by rw [← h3]; exact hq)⟩, ?_⟩
    intro x r hd
    have e1 : ({ m.updatePolc t.hash t.round with step := .precommit } : Smr).lockRound = (m.updatePolc t.hash t.round).lockRound := rfl
    have e2 : ({ m.updatePolc t.hash t.round with step := .precommit } : Smr).round = m.round := updatePolc_round ..
    rw [e1, e2]
    rcases hd with hd | ⟨rfl, rfl, hz⟩
    · exact ⟨(hD x r hd).1, lockOn _ _ hq hle x r hd, (hD x r hd).2.2⟩
    · exact ⟨hz, own hz, Nat.le_refl _⟩
  | prevoteSkip h1 hs h2 h3 =>
    have hq := (ht hs).2.1 h1
    rw [h2] at hq
    have hi := inc64_of_lt hr
    have hle : m.round ≤ t.round := Nat.le_of_lt h3
    simp only [Out.toState, List.filterMap_cons, List.filterMap_nil, LChain, if_true, hi]
    have own : t.hash ≠ [] → Covers B m.height t.hash (t.round + 1) (m.updatePolc t.hash t.round).lockRound := by
      intro hz
      refine .inr ⟨t.round, by simp [Smr.lockRound, updatePolc_lock, hz], Nat.le_refl _, hq⟩
    refine ⟨lockOn _ _ hq hle, lockOn _ _ hq hle, fun hz => ⟨own hz, .inr ⟨_, rfl, hq, Pos.le_refl _⟩⟩, ?_⟩
    intro x r hd
    have e1 : ({ m.updatePolc t.hash t.round with step := .precommit, round := t.round + 1 } : Smr).lockRound =
      (m.updatePolc t.hash t.round).lockRound := rfl
    rw [e1]
    show _ ∧ _ ∧ r ≤ t.round + 1
    rcases hd with hd | ⟨rfl, rfl, hz⟩
    · exact ⟨(hD x r hd).1, lockOn _ _ hq hle x r hd, by have := (hD x r hd).2.2; omega⟩
    · exact ⟨hz, own hz, Nat.le_refl _⟩
  | precommitTimer h1 hs h2 h3 hst =>
    simp only [Out.toState, List.filterMap_cons, List.filterMap_nil, LChain, if_true]
    exact ⟨fun x r hd => (hD x r hd).2.1, same _ rfl (Nat.le_refl _)⟩
  | precommitNil h1 hs h2 h3 hst hn =>
    have hi := inc64_of_lt hr
    simp only [Out.toState, List.filterMap_cons, List.filterMap_nil, LChain, if_true, hi]
    exact ⟨fun x r hd => (hD x r hd).2.1, same _ rfl (by dsimp only; omega)⟩
  | commit h1 hs h2 hst hn =>
    simp only [Out.toState, List.filterMap_cons, List.filterMap_nil, LChain]
    exact same _ rfl (Nat.le_refl _)
  | brake h1 hs h2 h3 =>
    simp only [Out.toState, List.filterMap_cons, List.filterMap_nil, LChain, if_true]
    exact ⟨fun x r hd => (hD x r hd).2.1, hD⟩
  | cont h1 hs h2 h3 =>
    have hi := inc64_of_lt (n := t.round - 1) (by omega)
    simp only [Out.toState, List.filterMap_cons, List.filterMap_nil, LChain, if_true, hi]
    exact ⟨fun x r hd => (hD x r hd).2.1, same _ rfl (by dsimp only; omega)⟩
  | wal w h1 => exact absurd h1 hw
  | stop h1 =>
    simp only [Out.toState, List.filterMap_cons, List.filterMap_nil, LChain]
    exact hD

/-- The lock and the events of the machine come from certificates. -/
theorem smr_ok {B : Certs} {m : Smr} {t : SMRTrigger} (hw : NotWal t) (ht : TrigCert B t) (hm : SmrOk B m) :
    SmrOk B (m.onTrigger t).next ∧ ∀ ev ∈ (m.onTrigger t).outs.filterMap Out.toState, EvOk B ev := by
  have hc := smr_case m t
  have lk : ∀ m' : Smr, m'.lock = m.lock → m'.blockHash = m.blockHash → m'.height = m.height → SmrOk B m' := by
    intro m' h1 h2 h3 l hl
    rw [h1] at hl; rw [h2, h3]; exact hm l hl
  have nr : ∀ l, m.lockRound = some l → ∃ z, B .prevote m.height l z := by
    intro l hl
    obtain ⟨l', h1, rfl⟩ := Option.map_eq_some_iff.1 hl
    exact ⟨_, (hm l' h1).2⟩
  have up : ∀ (z : Hash) (ρ : Nat), B .prevote m.height ρ z → ∀ m' : Smr, m'.lock = (m.updatePolc z ρ).lock →
      m'.blockHash = (m.updatePolc z ρ).blockHash → m'.height = m.height → SmrOk B m' := by
    intro z ρ hz m' h1 h2 h3 l hl
    rw [h1, updatePolc_lock] at hl
    split at hl
    · cases hl
    · cases hl; rw [h2, updatePolc_blockHash, h3]; exact ⟨rfl, hz⟩
  generalize m.onTrigger t = o at *
  cases hc with
  | quiet res => exact ⟨hm, by simp⟩
  | newHeight st h1 hs hlt =>
    constructor
    · intro l hl
      have : (none : Option Lock) = some l := hl
      cases this
    · simp [Out.toState, EvOk]
  | propTimer h1 hs h2 h3 hst => exact ⟨lk _ rfl rfl rfl, by simp [Out.toState, EvOk]⟩
  | propState s1 h1 hs h2 h3 hst hne hacc =>
    obtain ⟨a1, a2, a3, a4⟩ := accept_spec hacc
    refine ⟨?_, by simp [Out.toState, EvOk]⟩
    rcases a4 with ⟨b1, b2, b3⟩ | ⟨b1, b2, b3⟩
    · exact lk _ b1 b2 a1
    · intro l hl
      have : s1.lock = some l := hl
      rw [b1] at this; cases this
  | prevoteTimer b h1 hs h2 h3 hst hb =>
    refine ⟨?_, by simp [Out.toState, EvOk]⟩
    rcases hb with ⟨hb, _⟩ | ⟨_, hb⟩
    · intro l hl
      have : m.lock = some l := hl
      rw [hb] at this; cases this
    · exact lk _ rfl hb rfl
  | prevoteSame h1 hs h2 h3 hst =>
    have hq := (ht hs).2.1 h1
    rw [h2] at hq
    exact ⟨up _ _ hq _ rfl rfl (updatePolc_height ..), by simp [Out.toState, EvOk]⟩
  | prevoteSkip h1 hs h2 h3 =>
    have hq := (ht hs).2.1 h1
    rw [h2] at hq
    refine ⟨up _ _ hq _ rfl rfl (updatePolc_height ..), ?_⟩
    intro ev hev
    simp only [Out.toState, List.filterMap_cons, List.filterMap_nil, List.mem_cons, List.not_mem_nil, or_false] at hev
    rcases hev with rfl | rfl
    · intro l hl
      obtain ⟨l', e1, rfl⟩ := Option.map_eq_some_iff.1 hl
      rw [updatePolc_lock] at e1
      split at e1
      · cases e1
      · cases e1; exact ⟨_, hq⟩
    · trivial
  | precommitTimer h1 hs h2 h3 hst => exact ⟨lk _ rfl rfl rfl, by simp [Out.toState, EvOk]⟩
  | precommitNil h1 hs h2 h3 hst hn =>
    refine ⟨lk _ rfl rfl rfl, ?_⟩
    intro ev hev
    simp only [Out.toState, List.filterMap_cons, List.filterMap_nil, List.mem_cons, List.not_mem_nil, or_false] at hev
    subst hev; exact nr
  | commit h1 hs h2 hst hn => exact ⟨lk _ rfl rfl rfl, by simpa [Out.toState, EvOk] using hn⟩
  | brake h1 hs h2 h3 => exact ⟨hm, by simp [Out.toState, EvOk]⟩
  | cont h1 hs h2 h3 =>
    refine ⟨lk _ rfl rfl rfl, ?_⟩
    intro ev hev
    simp only [Out.toState, List.filterMap_cons, List.filterMap_nil, List.mem_cons, List.not_mem_nil, or_false] at hev
    subst hev; exact nr
  | wal w h1 => exact absurd h1 hw
  | stop h1 => exact ⟨hm, by simp [Out.toState, EvOk]⟩

end Overlord
