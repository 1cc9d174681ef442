import Verif.Spec.Seeds
import Verif.Proofs.NodeAuth
import Verif.Proofs.GoodSt

/-! Two runs with different hash seeds: relational reasoning about handlers. -/

set_option linter.unusedSimpArgs false
set_option linter.unusedVariables false
set_option linter.unusedSectionVars false
set_option linter.unnecessarySeqFocus false

namespace Overlord
namespace Seed
open M Spec

variable {T : Type}

theorem SameCert.refl (a : AggregatedChoke) : SameCert a a := ⟨rfl, rfl, rfl, .refl _⟩
theorem SameReason.refl (u : UpdateFrom) : SameReason u u := by
  cases u <;> simp [SameReason, SameCert.refl]
theorem SameChoke.refl (a : SignedChoke) : SameChoke a a := ⟨rfl, rfl, rfl, rfl, SameReason.refl _⟩

theorem forall₂_refl {α : Type} {R : α → α → Prop} (h : ∀ a, R a a) (l : List α) : List.Forall₂ R l l := by
  induction l with
  | nil => exact .nil
  | cons a l ih => exact .cons (h a) ih

theorem SameChokes.refl (c : ChokeCollector) : SameChokes c c :=
  ⟨forall₂_refl (fun _ => ⟨rfl, forall₂_refl (fun _ => ⟨rfl, SameChoke.refl _⟩) _⟩) _, forall₂_refl (fun _ => ⟨rfl, SameCert.refl _⟩) _⟩
theorem SameState.refl (s : State T) : SameState s s := ⟨rfl, SameChokes.refl _, SameReason.refl _⟩
theorem SameRecord.refl (w : WalInfo T) : SameRecord w w := ⟨rfl, SameReason.refl _⟩
theorem SameEffect.refl (x : Effect T) : SameEffect x x := by
  cases x with
  | broadcast m => cases m <;> simp [SameEffect, SameChoke.refl]
  | saveWal w b => exact ⟨SameRecord.refl _, rfl⟩
  | _ => rfl

theorem SameWork.nil : SameWork ([] : List (Effect T)) [] := ⟨.nil, .refl _⟩

theorem forall₂_append {α β : Type} {R : α → β → Prop} {a c : List α} {b d : List β} (h : List.Forall₂ R a b) (h' : List.Forall₂ R c d) :
    List.Forall₂ R (a ++ c) (b ++ d) := by
  induction h with
  | nil => exact h'
  | cons h1 _ ih => exact .cons h1 ih

theorem SameWork.append {a b c d : List (Effect T)} (h : SameWork a b) (h' : SameWork c d) : SameWork (a ++ c) (b ++ d) := by
  simp only [SameWork, List.filter_append]
  exact ⟨forall₂_append h.1 h'.1, h.2.append h'.2⟩

/-- An action other than the start of a signature check. -/
theorem sameEffect_check {x y : Effect T} (h : SameEffect x y) : isSigCheck x = isSigCheck y := by
  cases x with
  | broadcast m => cases m <;> cases y <;> simp_all [SameEffect, isSigCheck]
  | saveWal w b => cases y <;> simp_all [SameEffect, isSigCheck]
  | _ => simp only [SameEffect] at h; rw [← h]

theorem SameWork.one {x y : Effect T} (h : SameEffect x y) : SameWork [x] [y] := by
  have hc := sameEffect_check h
  cases hx : isSigCheck x with
  | false =>
    rw [hx] at hc
    simp only [SameWork, List.filter_cons, hx, ← hc, List.filter_nil]
    exact ⟨.cons h .nil, .refl _⟩
  | true =>
    cases x with
    | spawnVerify m a =>
      simp only [SameEffect] at h
      rw [← h]
      exact ⟨forall₂_refl SameEffect.refl _, .refl _⟩
    | _ => simp [isSigCheck] at hx

theorem SameWork.checks (l l' : List (OverlordMsg T)) (a : Authority) (h : l.Perm l') :
    SameWork (l.map fun m => Effect.spawnVerify m a) (l'.map fun m => Effect.spawnVerify m a) := by
  have h1 : ∀ l : List (OverlordMsg T), (l.map fun m => Effect.spawnVerify m a).filter (fun x => !isSigCheck x) = [] := by
    intro l; simp [isSigCheck]
  have h2 : ∀ l : List (OverlordMsg T), (l.map fun m => Effect.spawnVerify m a).filter isSigCheck = l.map fun m => Effect.spawnVerify m a := by
    intro l; simp [isSigCheck]
  refine ⟨by rw [h1, h1]; exact .nil, by rw [h2, h2]; exact h.map _⟩

/-! ## Runs of two programs -/

def SameWorld (w w' : World T) : Prop := SameState w.st w'.st ∧ SameWork w.log w'.log

/-- What the proof needs of the answers. -/
structure Proper (e : Env T) : Prop where
  saves : ∀ b, e.walSave b = true
  blind : OrderBlind e.crypto

/-- From related worlds, the programs end with equal results in related worlds. -/
def Bl {α : Type} (I J : State T → Prop) (m m' : M T α) : Prop :=
  ∀ (e : Env T) (sh : Shuffle) (w w' : World T), Proper e → I w.st → SameWorld w w' →
    (m e w).1 = (m' { e with sh := sh } w').1 ∧ SameWorld (m e w).2 (m' { e with sh := sh } w').2 ∧
      ∀ a, (m e w).1 = .ok a → J (m e w).2.st

variable {α β : Type} {I J K : State T → Prop}

theorem Bl.pure (a : α) : Bl I I (pure a : M T α) (pure a) := fun e sh w w' _ hi h => ⟨rfl, h, fun _ _ => hi⟩
theorem Bl.fail (x : Err) : Bl I J (M.fail x : M T α) (M.fail x) :=
  fun e sh w w' _ hi h => ⟨rfl, h, fun a ha => by cases ha⟩
theorem Bl.lift (x : Except Err α) : Bl I I (M.lift x : M T α) (M.lift x) := fun e sh w w' _ hi h => ⟨rfl, h, fun _ _ => hi⟩
theorem Bl.some! (x : Option α) (y : Err) : Bl I I (M.some! x y : M T α) (M.some! x y) := by
  intro e sh w w' _ hi h
  cases x with
  | none => exact ⟨rfl, h, fun _ _ => hi⟩
  | some a => exact ⟨rfl, h, fun _ _ => hi⟩
theorem Bl.emit {x y : Effect T} (hx : SameEffect x y) : Bl I I (M.emit x) (M.emit y) :=
  fun e sh w w' _ hi h => ⟨rfl, ⟨h.1, SameWork.append h.2 (SameWork.one hx)⟩, fun _ _ => hi⟩
theorem Bl.emit' {x : Effect T} : Bl I I (M.emit x) (M.emit x) := Bl.emit (SameEffect.refl x)
theorem Bl.modify {f g : State T → State T} (hf : ∀ s s', SameState s s' → I s → SameState (f s) (g s'))
    (hj : ∀ s, I s → J (f s)) : Bl I J (M.modify f) (M.modify g) :=
  fun e sh w w' _ hi h => ⟨rfl, ⟨hf _ _ h.1 hi, h.2⟩, fun _ _ => hj _ hi⟩

/-- An update that touches neither chokes nor justification. -/
theorem Bl.modify' {f : State T → State T}
    (hf : ∀ s c u, f { s with chokes := c, updateFrom := u } = { f s with chokes := c, updateFrom := u })
    (hg : ∀ s, (f s).chokes = s.chokes ∧ (f s).updateFrom = s.updateFrom)
    (hj : ∀ s, I s → J (f s)) : Bl I J (M.modify f) (M.modify f) := by
  refine Bl.modify (fun s s' h _ => ?_) hj
  obtain ⟨h1, h2, h3⟩ := h
  refine ⟨?_, by rw [(hg s).1, (hg s').1]; exact h2, by rw [(hg s).2, (hg s').2]; exact h3⟩
  rw [(hg s').1, (hg s').2]
  conv_lhs => rw [h1]
  exact hf s _ _

theorem Bl.bind {m m' : M T α} {k k' : α → M T β} (h : Bl I J m m') (hk : ∀ a, Bl J K (k a) (k' a)) :
    Bl I K (m >>= k) (m' >>= k') := by
  intro e sh w w' hp hi hw
  obtain ⟨h1, h2, h3⟩ := h e sh w w' hp hi hw
  simp only [Bind.bind, M.bind]
  cases hm : m e w with
  | mk r v =>
    cases hm' : m' { e with sh := sh } w' with
    | mk r' v' =>
      rw [hm, hm'] at h1 h2
      rw [hm] at h3
      simp only at h1 h2 h3
      subst h1
      cases r with
      | error x => exact ⟨rfl, h2, fun _ h => by cases h⟩
      | ok a => exact hk a e sh v v' hp (h3 a rfl) h2

theorem Bl.get {k k' : State T → M T β} (hk : ∀ s s', SameState s s' → I s → Bl I K (k s) (k' s')) :
    Bl I K (M.get >>= k) (M.get >>= k') := by
  intro e sh w w' hp hi hw
  exact hk w.st w'.st hw.1 hi e sh w w' hp hi hw

/-- The state that is read, with the two differences named. -/
theorem Bl.get' {k k' : State T → M T β}
    (hk : ∀ s c u, SameChokes s.chokes c → SameReason s.updateFrom u → I s → Bl I K (k s) (k' { s with chokes := c, updateFrom := u })) :
    Bl I K (M.get >>= k) (M.get >>= k') := by
  refine Bl.get fun s s' h hi => ?_
  have := hk s _ _ h.2.1 h.2.2 hi
  rwa [← h.1] at this

theorem Bl.askR {R : α → α → Prop} {f f' : Env T → α} {k k' : α → M T β} (hf : ∀ e sh, Proper e → R (f e) (f' { e with sh := sh }))
    (hk : ∀ a b, R a b → Bl I K (k a) (k' b)) : Bl I K (M.ask f >>= k) (M.ask f' >>= k') := by
  intro e sh w w' hp hi hw
  exact hk _ _ (hf e sh hp) e sh w w' hp hi hw

theorem Bl.ask {f : Env T → α} {k k' : α → M T β} (hf : ∀ e sh, f { e with sh := sh } = f e)
    (hk : ∀ a, Bl I K (k a) (k' a)) : Bl I K (M.ask f >>= k) (M.ask f >>= k') :=
  Bl.askR (R := fun a b => a = b) (fun e sh _ => (hf e sh).symm) (by rintro a _ rfl; exact hk a)

theorem Bl.someNone (x : Err) (k k' : α → M T β) : Bl I K (M.some! none x >>= k) (M.some! none x >>= k') :=
  fun e sh w w' hp hi hw => ⟨rfl, hw, fun _ h => by cases h⟩

theorem Bl.someSome {a b : α} (x y : Err) {k k' : α → M T β} (h : Bl I K (k a) (k' b)) :
    Bl I K (M.some! (some a) x >>= k) (M.some! (some b) y >>= k') :=
  fun e sh w w' hp hi hw => h e sh w w' hp hi hw

theorem Bl.askBind {γ : Type} {R : α → α → Prop} {f f' : Env T → α} {k k' : α → M T β} {j j' : β → M T γ}
    (hf : ∀ e sh, Proper e → R (f e) (f' { e with sh := sh }))
    (hk : ∀ a b, R a b → Bl I K (k a >>= j) (k' b >>= j')) : Bl I K ((M.ask f >>= k) >>= j) ((M.ask f' >>= k') >>= j') := by
  intro e sh w w' hp hi hw
  exact hk _ _ (hf e sh hp) e sh w w' hp hi hw

theorem Bl.ite {c : Prop} [Decidable c] {m m' n n' : M T α} (h1 : c → Bl I J m m') (h2 : ¬ c → Bl I J n n') :
    Bl I J (if c then m else n) (if c then m' else n') := by
  split
  · exact h1 ‹_›
  · exact h2 ‹_›

theorem Bl.weaken {I' J' : State T → Prop} {m m' : M T α} (h : Bl I J m m') (hi : ∀ s, I' s → I s) (hj : ∀ s, J s → J' s) :
    Bl I' J' m m' := by
  intro e sh w w' hp hi' hw
  obtain ⟨h1, h2, h3⟩ := h e sh w w' hp (hi _ hi') hw
  exact ⟨h1, h2, fun a ha => hj _ (h3 a ha)⟩

theorem Bl.logged {m m' : M T Unit} (h : Bl I J m m') : Bl I (fun _ => True) (M.logged m) (M.logged m') := by
  intro e sh w w' hp hi hw
  obtain ⟨h1, h2, h3⟩ := h e sh w w' hp hi hw
  unfold M.logged
  cases hm : m e w with
  | mk r v =>
    cases hm' : m' { e with sh := sh } w' with
    | mk r' v' =>
      rw [hm, hm'] at h1 h2
      simp only at h1 h2
      subst h1
      cases r with
      | ok a => exact ⟨rfl, h2, fun _ _ => trivial⟩
      | error x => cases x <;> exact ⟨rfl, h2, fun _ _ => trivial⟩

theorem Bl.top {m m' : M T α} (h : Bl I J m m') : Bl I (fun _ => True) m m' := h.weaken (fun _ h => h) (fun _ _ => trivial)

/-! ## Small methods -/

theorem bl_verifyAddress (a : Address) : Bl I (fun s : State T => I s) (verifyAddress a) (verifyAddress a) := by
  unfold verifyAddress
  refine Bl.get' fun s c u hc hu hi => ?_
  exact Bl.ite (fun _ => .pure _) (fun _ => .fail _)

theorem bl_verifyProposer (h r : Nat) (a : Address) : Bl I I (verifyProposer (T := T) h r a) (verifyProposer h r a) := by
  unfold verifyProposer
  refine Bl.bind (bl_verifyAddress a) fun _ => Bl.get' fun s c u hc hu hi => Bl.ask (fun _ _ => rfl) fun mode => ?_
  refine Bl.bind (.lift _) fun p => ?_
  exact Bl.ite (fun _ => .fail _) (fun _ => .pure _)

theorem bl_isProposer (hI : ∀ (s : State T) b a, I s → I { s with isLeader := b, leaderAddress := a }) :
    Bl I I (isProposer (T := T)) isProposer := by
  unfold isProposer
  refine Bl.get' fun s c u hc hu hi => Bl.ask (fun _ _ => rfl) fun mode => ?_
  refine Bl.bind (.lift _) fun p => ?_
  refine Bl.ite (fun _ => ?_) (fun _ => ?_)
  · exact Bl.bind (Bl.modify' (J := I) (fun _ _ _ => rfl) (fun _ => ⟨rfl, rfl⟩) (fun s h => hI _ _ _ h)) fun _ => .pure _
  · exact Bl.bind (Bl.modify' (J := I) (fun _ _ _ => rfl) (fun _ => ⟨rfl, rfl⟩) (fun s h => hI _ _ _ h)) fun _ => .pure _

theorem bl_nextProposer (h r : Nat) : Bl I I (nextProposer (T := T) h r) (nextProposer h r) := by
  unfold nextProposer
  refine Bl.get' fun s c u hc hu hi => Bl.ask (fun _ _ => rfl) fun mode => ?_
  exact Bl.bind (.lift _) fun p => .pure _

theorem bl_signVote (v : Vote) : Bl I I (signVote (T := T) v) (signVote v) := by
  unfold signVote
  refine Bl.get' fun s c u hc hu hi => Bl.ask (fun _ _ => rfl) fun cr => ?_
  exact Bl.bind (.some! _ _) fun p => .pure _

theorem bl_transmit (m : OverlordMsg T) : Bl I I (transmit m) (transmit m) := by
  unfold transmit
  exact Bl.get' fun s c u hc hu hi => Bl.emit'

theorem bl_checkBlock (h : Hash) (b : T) : Bl I I (checkBlock h b) (checkBlock h b) := by
  unfold checkBlock
  exact Bl.get' fun s c u hc hu hi => Bl.emit'

theorem bl_report (r : Nat) (x : ViewChangeReason) : Bl I I (reportViewChange (T := T) r x) (reportViewChange r x) := by
  unfold reportViewChange
  exact Bl.get' fun s c u hc hu hi => Bl.emit'

/-! ## Chokes -/

def MapRel {K V W : Type} (R : V → W → Prop) (m : AMap K V) (m' : AMap K W) : Prop :=
  List.Forall₂ (fun p q => p.1 = q.1 ∧ R p.2 q.2) m m'

section
variable {K V W : Type} [DecidableEq K] {R : V → W → Prop}

theorem MapRel.get? {m : AMap K V} {m' : AMap K W} (h : MapRel R m m') (k : K) :
    (m.get? k = none ∧ m'.get? k = none) ∨ ∃ v v', m.get? k = some v ∧ m'.get? k = some v' ∧ R v v' := by
  unfold MapRel at h
  induction h with
  | nil => exact .inl ⟨rfl, rfl⟩
  | @cons p q l l' h1 _ ih =>
    obtain ⟨k0, v0⟩ := p
    obtain ⟨k1, v1⟩ := q
    obtain ⟨rfl, hr⟩ := h1
    simp only [AMap.get?]
    by_cases hk : k0 = k
    · simp only [hk, if_true]; exact .inr ⟨_, _, rfl, rfl, hr⟩
    · simp only [hk, if_false]; exact ih

theorem MapRel.insert {m : AMap K V} {m' : AMap K W} (h : MapRel R m m') (k : K) {v : V} {v' : W} (hv : R v v') :
    MapRel R (m.insert k v) (m'.insert k v') := by
  unfold MapRel at h
  induction h with
  | nil => exact .cons ⟨rfl, hv⟩ .nil
  | @cons p q l l' h1 ht ih =>
    obtain ⟨k0, v0⟩ := p
    obtain ⟨k1, v1⟩ := q
    obtain ⟨rfl, hr⟩ := h1
    simp only [AMap.insert]
    by_cases hk : k0 = k
    · simp only [hk, if_true]; exact .cons ⟨rfl, hv⟩ ht
    · simp only [hk, if_false]; exact .cons ⟨rfl, hr⟩ ih
end

theorem sameChokes_iff (a b : ChokeCollector) : SameChokes a b ↔ MapRel (MapRel SameChoke) a.chokes b.chokes ∧ MapRel SameCert a.qcs b.qcs := Iff.rfl

theorem SameChokes.insert {a b : ChokeCollector} (h : SameChokes a b) (r : Nat) {x y : SignedChoke} (hx : SameChoke x y) :
    SameChokes (a.insert r x) (b.insert r y) := by
  rw [sameChokes_iff] at *
  refine ⟨?_, h.2⟩
  refine MapRel.insert h.1 r ?_
  have hin : MapRel SameChoke ((a.chokes.get? r).getD []) ((b.chokes.get? r).getD []) := by
    rcases h.1.get? r with ⟨h1, h2⟩ | ⟨v, v', h1, h2, h3⟩
    · rw [h1, h2]; exact .nil
    · rw [h1, h2]; exact h3
  rw [← hx.2.1]
  exact MapRel.insert hin _ hx

theorem SameChokes.setQc {a b : ChokeCollector} (h : SameChokes a b) (r : Nat) {x y : AggregatedChoke} (hx : SameCert x y) :
    SameChokes (a.setQc r x) (b.setQc r y) := by
  rw [sameChokes_iff] at *
  exact ⟨h.1, MapRel.insert h.2 r hx⟩

theorem orderedInsert_forall₂ {α β : Type} (R : α → β → Prop) (r : α → α → Prop) (r' : β → β → Prop) [DecidableRel r] [DecidableRel r']
    (hr : ∀ a b a' b', R a b → R a' b' → (r a a' ↔ r' b b')) {x : α} {y : β} (hx : R x y) {l : List α} {l' : List β} (h : List.Forall₂ R l l') :
    List.Forall₂ R (l.orderedInsert r x) (l'.orderedInsert r' y) := by
  induction h with
  | nil => exact .cons hx .nil
  | @cons a b l l' h1 h2 ih =>
    simp only [List.orderedInsert_cons]
    by_cases hc : r x a
    · rw [if_pos hc, if_pos ((hr _ _ _ _ hx h1).1 hc)]
      exact .cons hx (.cons h1 h2)
    · rw [if_neg hc, if_neg (fun h => hc ((hr _ _ _ _ hx h1).2 h))]
      exact .cons h1 ih

theorem sort_forall₂ {α β : Type} (R : α → β → Prop) (r : α → α → Prop) (r' : β → β → Prop) [DecidableRel r] [DecidableRel r']
    (hr : ∀ a b a' b', R a b → R a' b' → (r a a' ↔ r' b b')) {l : List α} {l' : List β} (h : List.Forall₂ R l l') :
    List.Forall₂ R (l.insertionSort r) (l'.insertionSort r') := by
  induction h with
  | nil => exact .nil
  | cons h1 h2 ih =>
    simp only [List.insertionSort_cons]
    exact orderedInsert_forall₂ R r r' hr h1 ih

theorem forall₂_length {α β : Type} {R : α → β → Prop} {l : List α} {l' : List β} (h : List.Forall₂ R l l') : l.length = l'.length := by
  induction h with
  | nil => rfl
  | cons _ _ ih => simp [ih]

theorem find_forall₂ {α β : Type} {R : α → β → Prop} {p : α → Bool} {q : β → Bool} (hp : ∀ a b, R a b → p a = q b)
    {l : List α} {l' : List β} (h : List.Forall₂ R l l') :
    (l.find? p = none ∧ l'.find? q = none) ∨ ∃ a b, l.find? p = some a ∧ l'.find? q = some b ∧ R a b := by
  induction h with
  | nil => exact .inl ⟨rfl, rfl⟩
  | @cons a b l l' h1 h2 ih =>
    simp only [List.find?_cons, ← hp a b h1]
    cases hc : p a with
    | true => exact .inr ⟨_, _, rfl, rfl, h1⟩
    | false => exact ih

theorem maxRound_same {a b : ChokeCollector} (h : SameChokes a b) (n : Nat) :
    a.maxRoundAboveThreshold n = b.maxRoundAboveThreshold n := by
  unfold ChokeCollector.maxRoundAboveThreshold
  have hs := sort_forall₂ _ (fun p q : Nat × AMap Address SignedChoke => p.1 ≥ q.1) (fun p q => p.1 ≥ q.1)
    (fun a b a' b' h1 h2 => by rw [h1.1, h2.1]) h.1
  rcases find_forall₂ (p := fun p => decide (p.2.length * 3 > n * 2)) (q := fun p => decide (p.2.length * 3 > n * 2))
    (fun a b hab => by rw [forall₂_length hab.2]) hs with ⟨h1, h2⟩ | ⟨x, y, h1, h2, h3⟩
  · rw [h1, h2]
  · rw [h1, h2]; simp [h3.1]

theorem getQc_same {a b : ChokeCollector} (h : SameChokes a b) (r : Nat) :
    (a.getQc r = none ∧ b.getQc r = none) ∨ ∃ x y, a.getQc r = some x ∧ b.getQc r = some y ∧ SameCert x y :=
  MapRel.get? ((sameChokes_iff a b).1 h).2 r

/-- The chokes of a round, as pairs of signature and address, are the same up to order. -/
theorem getChokes_same {a b : ChokeCollector} (h : SameChokes a b) (sh sh' : Shuffle) (r : Nat) :
    (a.getChokes sh r = none ∧ b.getChokes sh' r = none) ∨ ∃ x y, a.getChokes sh r = some x ∧ b.getChokes sh' r = some y ∧
      (x.map fun c => (c.signature, c.address)).Perm (y.map fun c => (c.signature, c.address)) := by
  rcases MapRel.get? ((sameChokes_iff a b).1 h).1 r with ⟨h1, h2⟩ | ⟨v, v', h1, h2, h3⟩
  · left; simp [ChokeCollector.getChokes, h1, h2]
  · right
    refine ⟨sh.run v.values, sh'.run v'.values, by simp [ChokeCollector.getChokes, h1], by simp [ChokeCollector.getChokes, h2], ?_⟩
    refine ((sh.perm _).map _).trans (List.Perm.trans ?_ ((sh'.perm _).map _).symm)
    have : v.values.map (fun c => (c.signature, c.address)) = v'.values.map (fun c => (c.signature, c.address)) := by
      unfold MapRel at h3
      clear h1 h2
      induction h3 with
      | nil => rfl
      | @cons p q l l' g1 g2 ih =>
        have : AMap.values (p :: l) = p.2 :: AMap.values l := rfl
        rw [this]
        have : AMap.values (q :: l') = q.2 :: AMap.values l' := rfl
        rw [this]
        simp only [List.map_cons, ih]
        rw [g1.2.1, g1.2.2.1]
    rw [this]

theorem bl_checkChoke (hI : ∀ (s : State T) c, I s → I { s with chokes := c }) : Bl I I (checkChokeAboveThreshold (T := T)) checkChokeAboveThreshold := by
  unfold checkChokeAboveThreshold
  refine Bl.get' fun s c u hc hu hi => ?_
  dsimp only
  rw [← maxRound_same hc]
  cases hm : s.chokes.maxRoundAboveThreshold s.authority.len with
  | none => exact .pure _
  | some round =>
    dsimp only
    refine Bl.ite (fun _ => .pure _) (fun _ => ?_)
    refine Bl.askR (R := fun x y => (x = none ∧ y = none) ∨ ∃ a b, x = some a ∧ y = some b ∧
      (a.map fun c => (c.signature, c.address)).Perm (b.map fun c => (c.signature, c.address)))
      (fun e sh _ => getChokes_same hc e.sh sh round) ?_
    rintro _ _ (⟨rfl, rfl⟩ | ⟨a, b, rfl, rfl, hab⟩)
    · exact .someNone _ _ _
    · refine .someSome _ _ ?_
      unfold aggregateSignatures
      refine Bl.askBind (R := fun x y => x = y ∧ OrderBlind x) (fun e sh hp => ⟨rfl, hp.blind⟩) ?_
      rintro cr _ ⟨rfl, hb⟩
      have hag := hb _ _ hab
      simp only [List.map_map, Function.comp_def] at hag
      have hv : (a.map SignedChoke.address).Perm (b.map SignedChoke.address) := by
        have := hab.map Prod.snd
        simpa only [List.map_map, Function.comp_def] using this
      rw [← show (fun c : SignedChoke => c.signature) = SignedChoke.signature from rfl, ← show (fun c : SignedChoke => c.address) = SignedChoke.address from rfl, ← hag]
      refine Bl.bind (.some! _ _) fun sig => ?_
      refine Bl.bind (J := I) (Bl.modify (fun s1 s2 h _ => ?_) fun s h => hI _ _ h) fun _ => Bl.emit'
      obtain ⟨h1, h2, h3⟩ := h
      refine ⟨?_, SameChokes.setQc h2 _ ⟨rfl, rfl, rfl, hv⟩, h3⟩
      conv_lhs => rw [h1]

/-! ## Counting votes -/

/-- The votes of the current height are by validators of the current list, one each, and the node is one of them. -/
def Pools (s : State T) : Prop :=
  ∃ l, ProperList l ∧ s.authority = Authority.update l ∧ s.address ∈ l.map Node.address ∧
    ∀ r ty, PoolOk (fun sv => sv.voter ∈ l.map Node.address) s.height r ty (poolD s.votes s.height r ty)

theorem pool_members {l : List Node} {h r : Nat} {ty : VoteType} {vs : Votes} (hp : PoolOk (fun sv => sv.voter ∈ l.map Node.address) h r ty vs)
    {p : Hash × List Address} (hm : p ∈ vs.byHash) :
    p.2.Nodup ∧ (∀ a ∈ p.2, a ∈ l.map Node.address) ∧ ∀ a ∈ p.2, ∃ v, vs.byAddress.get? a = some v ∧ v.vote.blockHash = p.1 := by
  obtain ⟨k, set⟩ := p
  have hgt := AMap.get?_of_mem _ hp.inv.hashNodup hm
  have hmem : ∀ a ∈ set, ∃ v, vs.byAddress.get? a = some v ∧ v.vote.blockHash = k := fun a ha =>
    (hp.inv.mem k a).1 (by rw [hgt]; exact ha)
  refine ⟨(hp.inv.setNodup _ _ hgt).1, fun a ha => ?_, hmem⟩
  obtain ⟨v, h1, _⟩ := hmem a ha
  have := hp.all _ (AMap.mem_of_get? _ h1)
  have h2 := this.2.2.2.2
  rwa [this.2.2.2.1] at h2

theorem count_pool {l : List Node} (hl : ProperList l) {c : VoteCollector} {h r : Nat} {ty : VoteType}
    (hp : PoolOk (fun sv => sv.voter ∈ l.map Node.address) h r ty (poolD c h r ty)) (sh : Shuffle) :
    countingVote sh (Authority.update l) c h r ty = if (poolD c h r ty).byHash = [] then .error .storageErr
      else .ok (((sh.run (poolD c h r ty).byHash).find?
        (fun p => decide (3 * (weight l (fun a => decide (a ∈ p.2)) % U32) > 2 * total l))).map Prod.fst) := by
  unfold countingVote
  rw [getVoteMap_pool]
  by_cases he : (poolD c h r ty).byHash = []
  · simp [he]
  · rw [if_neg he, if_neg he]
    simp only
    have hb := total_bound hl.2
    rw [countLoop_eq sh _ _ (fun s => (s.map (weightIn l)).sum % U32)]
    · congr 2
      apply find?_congr'
      intro p hm
      obtain ⟨hn, hin, _⟩ := pool_members hp ((sh.perm _).subset hm)
      rw [sum_weightIn l hl.1 p.2 hn hin, update_voteWeightSum,
        Nat.mod_eq_of_lt (a := total l) (by omega), Nat.mod_eq_of_lt (a := total l * 2) (by omega)]
      have := Nat.mod_le (weight l (fun a => decide (a ∈ p.2))) U32
      have := weight_le_total l (fun a => decide (a ∈ p.2))
      rw [Nat.mod_eq_of_lt (a := _ * 3) (by omega), Nat.mul_comm, Nat.mul_comm (total l)]
    · intro p hm
      obtain ⟨hn, hin, _⟩ := pool_members hp ((sh.perm _).subset hm)
      rw [sumWeights32_ok l hl.1 _ (fun a ha => hin a ((sh.perm _).subset ha)) 0 (by decide),
        Nat.zero_add, sum_perm ((sh.perm p.2).map _)]

theorem count_same {s : State T} (h : Pools s) (sh sh' : Shuffle) (ty : VoteType) :
    countingVote sh s.authority s.votes s.height s.round ty = countingVote sh' s.authority s.votes s.height s.round ty := by
  obtain ⟨l, hl, ha, _, hp⟩ := h
  have hp := hp s.round ty
  rw [ha, count_pool hl hp, count_pool hl hp]
  split
  · rfl
  · congr 2
    apply find?_perm_unique
    · exact (sh.perm _).trans (sh'.perm _).symm
    · intro a h1 b h2 q1 q2
      simp only [decide_eq_true_eq] at q1 q2
      have h1 := (sh.perm _).subset h1
      have h2 := (sh.perm _).subset h2
      have hma := Nat.mod_le (weight l (fun x => decide (x ∈ a.2))) U32
      have hmb := Nat.mod_le (weight l (fun x => decide (x ∈ b.2))) U32
      obtain ⟨n, hn, g1, g2⟩ := Good.quorum_meet (l := l) (p := fun x => decide (x ∈ a.2)) (q := fun x => decide (x ∈ b.2))
        (by unfold Quorum; omega) (by unfold Quorum; omega)
      obtain ⟨v, v1, v2⟩ := (pool_members hp h1).2.2 _ (of_decide_eq_true g1)
      obtain ⟨v', v3, v4⟩ := (pool_members hp h2).2.2 _ (of_decide_eq_true g2)
      rw [v1] at v3
      simp only [Option.some.injEq] at v3
      have he : a.1 = b.1 := by rw [← v2, ← v4, v3]
      have k1 := AMap.get?_of_mem _ hp.inv.hashNodup (k := a.1) (v := a.2) h1
      have k2 := AMap.get?_of_mem _ hp.inv.hashNodup (k := b.1) (v := b.2) h2
      rw [he, k2] at k1
      simp only [Option.some.injEq] at k1
      exact Prod.ext he k1.symm

/-- The votes for a block are the same up to order, with different voters. -/
theorem votes_same {s : State T} (h : Pools s) (sh sh' : Shuffle) (ty : VoteType) (hash : Hash) :
    (s.votes.getVotes sh s.height s.round ty hash = .error .storageErr ∧ s.votes.getVotes sh' s.height s.round ty hash = .error .storageErr) ∨
    ∃ a b, s.votes.getVotes sh s.height s.round ty hash = .ok a ∧ s.votes.getVotes sh' s.height s.round ty hash = .ok b ∧
      sortVotes a = sortVotes b := by
  obtain ⟨l, hl, ha, _, hp⟩ := h
  have hp := hp s.round ty
  rw [getVotes_pool, getVotes_pool]
  unfold Votes.getVotes
  cases hg : (poolD s.votes s.height s.round ty).byHash.get? hash with
  | none => left; exact ⟨rfl, rfl⟩
  | some set =>
    right
    have hv : ∀ a v, (poolD s.votes s.height s.round ty).byAddress.get? a = some v → v.voter = a := fun a v h => hp.inv.voter a v h
    have hs : ∀ sh : Shuffle, ∀ a ∈ sh.run set, ((poolD s.votes s.height s.round ty).byAddress.get? a).isSome := by
      intro sh a ha
      obtain ⟨v, h1, _⟩ := (hp.inv.mem hash a).1 (by rw [hg]; exact (sh.perm _).subset ha)
      rw [h1]; rfl
    obtain ⟨a, a1, a2, a3⟩ := mapM_get (sh.run set) (hs sh) hv
    obtain ⟨b, b1, b2, b3⟩ := mapM_get (sh'.run set) (hs sh') hv
    refine ⟨a, b, ?_, ?_, ?_⟩
    · simp only [Option.bind_some]; rw [a1]
    · simp only [Option.bind_some]; rw [b1]
    · have hnd := (hp.inv.setNodup _ _ hg).1
      have hna : (a.map SignedVote.voter).Nodup := by rw [a2]; exact (sh.perm _).nodup_iff.2 hnd
      have hnb : (b.map SignedVote.voter).Nodup := by rw [b2]; exact (sh'.perm _).nodup_iff.2 hnd
      have hab : a.Perm b := by
        refine (List.perm_ext_iff_of_nodup hna.of_map hnb.of_map).2 fun v => ⟨fun h => ?_, fun h => ?_⟩
        · have h1 := a3 v h
          have : v.voter ∈ b.map SignedVote.voter := by
            rw [b2]; exact (sh'.perm _).symm.subset ((sh.perm _).subset (a2 ▸ List.mem_map_of_mem h))
          obtain ⟨w, hw, he⟩ := List.mem_map.1 this
          have h2 := b3 w hw
          rw [he, h1] at h2
          simp only [Option.some.injEq] at h2
          rw [h2]; exact hw
        · have h1 := b3 v h
          have : v.voter ∈ a.map SignedVote.voter := by
            rw [a2]; exact (sh.perm _).symm.subset ((sh'.perm _).subset (b2 ▸ List.mem_map_of_mem h))
          obtain ⟨w, hw, he⟩ := List.mem_map.1 this
          have h2 := a3 w hw
          rw [he, h1] at h2
          simp only [Option.some.injEq] at h2
          rw [h2]; exact hw
      refine List.Perm.eq_of_pairwise ?_ (sortVotes_pairwise a) (sortVotes_pairwise b) ((sortVotes_perm a).trans (hab.trans (sortVotes_perm b).symm))
      intro v w hv hw h1 h2
      have hv := (sortVotes_perm a).subset hv
      have hw := hab.symm.subset ((sortVotes_perm b).subset hw)
      have he := bytesLe_antisymm h1 h2
      have g1 := a3 v hv
      have g2 := a3 w hw
      rw [he, g2] at g1
      simp only [Option.some.injEq] at g1
      exact g1.symm

theorem bl_countVotes (ty : VoteType) : Bl Pools Pools (countVotes (T := T) ty) (countVotes ty) := by
  unfold countVotes
  refine Bl.get' fun s c u hc hu hi => ?_
  refine Bl.askR (R := fun x y => x = y) (fun e sh _ => count_same hi e.sh sh ty) ?_
  rintro r _ rfl
  exact .lift _

theorem bl_generateQc (hash : Hash) (ty : VoteType) : Bl Pools Pools (generateQc (T := T) hash ty) (generateQc hash ty) := by
  unfold generateQc
  refine Bl.get' fun s c u hc hu hi => ?_
  refine Bl.askR (R := fun x y => (x = .error .storageErr ∧ y = .error .storageErr) ∨ ∃ a b, x = .ok a ∧ y = .ok b ∧ sortVotes a = sortVotes b)
    (fun e sh _ => votes_same hi e.sh sh ty hash) ?_
  rintro _ _ (⟨rfl, rfl⟩ | ⟨a, b, rfl, rfl, hab⟩)
  · exact fun e sh w w' hp hi hw => ⟨rfl, hw, fun _ h => by cases h⟩
  · have key : ∀ vs : List SignedVote, Bl Pools Pools (T := T)
        (aggregateSignatures (vs.map SignedVote.signature) (vs.map SignedVote.voter) >>= fun sig =>
          (pure { signature := { signature := sig, addressBitmap := s.authority.bitmapOf (vs.map SignedVote.voter) }
                  voteType := ty, height := s.height, round := s.round, blockHash := hash, leader := s.address } : M T AggregatedVote))
        (aggregateSignatures (vs.map SignedVote.signature) (vs.map SignedVote.voter) >>= fun sig =>
          (pure { signature := { signature := sig, addressBitmap := s.authority.bitmapOf (vs.map SignedVote.voter) }
                  voteType := ty, height := s.height, round := s.round, blockHash := hash, leader := s.address } : M T AggregatedVote)) := by
      intro vs
      unfold aggregateSignatures
      refine Bl.askBind (R := fun x y => x = y) (fun e sh hp => rfl) ?_
      rintro cr _ rfl
      exact Bl.bind (.some! _ _) fun sig => .pure _
    intro e sh w w' hp hi hw
    have := key (sortVotes a) e sh w w' hp hi hw
    rw [hab] at this
    simp only [Bind.bind, M.bind, M.lift]
    rw [hab]
    exact this

end Seed
end Overlord
