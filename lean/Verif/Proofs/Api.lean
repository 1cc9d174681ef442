import Verif.Spec.Api

/-!
# The public object (C57): the invariant of a history
-/

set_option linter.unusedSectionVars false
set_option linter.unusedVariables false

namespace Overlord.ApiP
open Spec

variable {T : Type} [ContentCodec T] [DecidableEq T]

/-- The objects are all there. -/
def full (addr : Address) : Piles := { sender := true, stateRx := true, address := some addr, consensus := true, crypto := true, wal := true }

/-- All taken, but the sender. -/
def gone : Piles := { sender := true, stateRx := false, address := none, consensus := false, crypto := false, wal := false }

theorem takeAll_full (addr : Address) : (full addr).takeAll = (gone, some addr) := rfl
theorem takeAll_gone : gone.takeAll = (gone, none) := rfl

theorem run_snoc {addr : Address} {x : NAct T} : ∀ (as : List (NAct T)) (n : NodeSys T) {m k : NodeSys T}, n.run addr as = some m → m.act addr x = some k →
    n.run addr (as ++ [x]) = some k := by
  intro as
  induction as with
  | nil => intro n m k h hx; cases h; simp [NodeSys.run, hx]
  | cons a as ih =>
    intro n m k h hx
    simp only [NodeSys.run, List.cons_append] at h ⊢
    split at h
    · cases h
    · rename_i n' he
      exact ih n' h hx

/-- What holds after every history `h` of an object that was created for a node `n0`. -/
structure Inv (addr : Address) (n0 : NodeSys T) (a : Api T) (h : List (Call T × Ret T)) : Prop where
  before : starts h = 0 → a.piles = full addr ∧ a.closed = false ∧ a.node = n0 ∧ accepted h = a.queue ∧ received h = [] ∧ nodeSteps h = []
  after : starts h ≠ 0 → starts h = 1 ∧ a.piles = gone ∧ a.closed = a.node.down ∧ (a.closed = false → accepted h = received h ++ a.queue) ∧
    received h <+: accepted h
  runs : n0.run addr (nodeSteps h) = some a.node

theorem inv_new (addr : Address) (n0 : NodeSys T) : Inv addr n0 (Api.new addr n0) [] :=
  ⟨fun _ => ⟨rfl, rfl, rfl, rfl, rfl, rfl⟩, fun h => absurd rfl h, rfl⟩

section
variable (h : List (Call T × Ret T)) (x : Call T × Ret T)
theorem accepted_snoc : accepted (h ++ [x]) = accepted h ++ accepted [x] := by simp [accepted, List.filterMap_append]
theorem received_snoc : received (h ++ [x]) = received h ++ received [x] := by simp [received, List.filterMap_append]
theorem nodeSteps_snoc : nodeSteps (h ++ [x]) = nodeSteps h ++ nodeSteps [x] := by simp [nodeSteps, List.filterMap_append]
theorem starts_snoc : starts (h ++ [x]) = starts h + starts [x] := by simp [starts, List.filter_append]
end

/-- A step of the running node that takes up the messages `l` from the channel. -/
theorem inv_step {addr : Address} {n0 : NodeSys T} {a : Api T} {h : List (Call T × Ret T)} (I : Inv addr n0 a h) (hs : starts h ≠ 0)
    {y : Call T × Ret T} {x : NAct T} {l q : List (OverlordMsg T)} {n : NodeSys T} (hx : a.node.act addr x = some n) (hq : a.queue = l ++ q)
    (ha : accepted [y] = []) (hr : received [y] = l) (hn : nodeSteps [y] = [x]) (hst : starts [y] = 0) (hl : l ≠ [] → a.closed = false) :
    (a.node.down = true → n.down = true) → Inv addr n0 (({ a with queue := q }).settle n) (h ++ [y]) := by
  intro hdn
  obtain ⟨h1, h2, h3, h4, h5⟩ := I.after hs
  refine ⟨fun h0 => ?_, fun _ => ?_, ?_⟩
  · rw [starts_snoc] at h0; omega
  · rw [starts_snoc, hst, accepted_snoc, received_snoc, ha, hr, List.append_nil]
    have hp : received h ++ l <+: accepted h := by
      by_cases hl0 : l = []
      · subst hl0; simpa using h5
      · rw [h4 (hl hl0), hq, ← List.append_assoc]; exact List.prefix_append _ _
    refine ⟨h1, ?_, ?_, ?_, hp⟩
    · unfold Api.settle; split <;> exact h2
    · unfold Api.settle
      split
      · rename_i hd; exact hd.symm
      · rename_i hd
        show a.closed = n.down
        rw [h3]
        cases hb : a.node.down with
        | true => exact absurd (hdn hb) hd
        | false => cases hc : n.down with
          | true => exact absurd hc hd
          | false => rfl
    · unfold Api.settle
      split
      · intro hc; cases hc
      · intro hc
        have hc' : a.closed = false := hc
        rw [h4 hc', hq, List.append_assoc]
  · rw [nodeSteps_snoc, hn]
    have : (({ a with queue := q }).settle n).node = n := by unfold Api.settle; split <;> rfl
    rw [this]
    exact run_snoc _ _ I.runs hx

theorem down_arm {addr : Address} {n m : NodeSys T} {x : NAct T} (hi : x.isInner = true ∨ ∃ msg e cut, x = .arm (.raw msg) e cut) (h : n.act addr x = some m) :
    n.down = false := by
  cases hd : n.down with
  | false => rfl
  | true =>
    rcases hi with hi | ⟨msg, e, cut, rfl⟩
    · cases x with
      | start p e cut => simp [NAct.isInner] at hi
      | crash => simp [NAct.isInner] at hi
      | _ => simp [NodeSys.act, hd] at h
    · simp [NodeSys.act, hd] at h

/-- The invariant is kept. -/
theorem inv_act {addr : Address} {n0 : NodeSys T} {a b : Api T} {h : List (Call T × Ret T)} {c : Call T} {r : Ret T} (I : Inv addr n0 a h)
    (hc : a.act addr c = some (b, r)) : Inv addr n0 b (h ++ [(c, r)]) := by
  -- a call that changes nothing and says nothing
  have quiet : ∀ y : Call T × Ret T, accepted [y] = [] → received [y] = [] → nodeSteps [y] = [] → starts [y] = 0 → Inv addr n0 a (h ++ [y]) := by
    intro y h1 h2 h3 h4
    refine ⟨fun h0 => ?_, fun h0 => ?_, ?_⟩
    · rw [starts_snoc, h4] at h0
      rw [accepted_snoc, received_snoc, nodeSteps_snoc, h1, h2, h3]
      simpa using I.before h0
    · rw [starts_snoc, h4] at h0 ⊢
      rw [accepted_snoc, received_snoc, h1, h2]
      simpa using I.after h0
    · rw [nodeSteps_snoc, h3]; simpa using I.runs
  cases c with
  | getHandler =>
    simp only [Api.act, Option.some.injEq, Prod.mk.injEq] at hc
    obtain ⟨rfl, rfl⟩ := hc
    cases hsd : a.piles.sender <;> exact quiet _ rfl rfl rfl rfl
  | send m =>
    simp only [Api.act] at hc
    split at hc
    · simp only [Option.some.injEq, Prod.mk.injEq] at hc
      obtain ⟨rfl, rfl⟩ := hc
      exact quiet _ rfl rfl rfl rfl
    · rename_i hcl
      simp only [Bool.not_eq_true] at hcl
      simp only [Option.some.injEq, Prod.mk.injEq] at hc
      obtain ⟨rfl, rfl⟩ := hc
      refine ⟨fun h0 => ?_, fun h0 => ?_, ?_⟩
      · rw [starts_snoc] at h0
        obtain ⟨h1, h2, h3, h4, h5, h6⟩ := I.before (by omega)
        rw [accepted_snoc, received_snoc, nodeSteps_snoc, h4, h5, h6]
        exact ⟨h1, h2, h3, rfl, rfl, rfl⟩
      · have e0 : starts [((Call.send m, Ret.ok) : Call T × Ret T)] = 0 := rfl
        rw [starts_snoc, e0] at h0 ⊢
        obtain ⟨h1, h2, h3, h4, h5⟩ := I.after h0
        rw [accepted_snoc, received_snoc]
        have e1 : accepted [((Call.send m, Ret.ok) : Call T × Ret T)] = [m] := rfl
        have e2 : received [((Call.send m, Ret.ok) : Call T × Ret T)] = [] := rfl
        rw [e1, e2, List.append_nil]
        refine ⟨h1, h2, h3, fun hcl' => ?_, h5.trans (List.prefix_append _ _)⟩
        rw [h4 hcl, List.append_assoc]
      · rw [nodeSteps_snoc]
        have e3 : nodeSteps [((Call.send m, Ret.ok) : Call T × Ret T)] = [] := rfl
        rw [e3, List.append_nil]; exact I.runs
  | run p e cut =>
    by_cases h0 : starts h = 0
    · obtain ⟨h1, h2, h3, h4, h5, h6⟩ := I.before h0
      simp only [Api.act, h1, takeAll_full] at hc
      split at hc
      · cases hc
      · rename_i n hn
        simp only [Option.some.injEq, Prod.mk.injEq] at hc
        obtain ⟨rfl, rfl⟩ := hc
        have e0 : starts [((Call.run p e cut, Ret.started) : Call T × Ret T)] = 1 := rfl
        have e1 : accepted [((Call.run p e cut, Ret.started) : Call T × Ret T)] = [] := rfl
        have e2 : received [((Call.run p e cut, Ret.started) : Call T × Ret T)] = [] := rfl
        have e3 : nodeSteps [((Call.run p e cut, Ret.started) : Call T × Ret T)] = [.start p e cut] := rfl
        refine ⟨fun h7 => ?_, fun h7 => ?_, ?_⟩
        · rw [starts_snoc, e0] at h7; omega
        · rw [starts_snoc, e0, h0, accepted_snoc, received_snoc, e1, e2, h4, h5]
          refine ⟨rfl, ?_, ?_, ?_, ?_⟩
          · unfold Api.settle; split <;> rfl
          · unfold Api.settle
            split
            · rename_i hd; exact hd.symm
            · rename_i hd
              show a.closed = n.down
              rw [h2]; cases hc : n.down with
              | true => exact absurd hc hd
              | false => rfl
          · unfold Api.settle
            split
            · intro hc; cases hc
            · intro _; simp
          · simp
        · rw [nodeSteps_snoc, e3]
          have : ((({ a with piles := gone } : Api T)).settle n).node = n := by unfold Api.settle; split <;> rfl
          rw [this]
          exact run_snoc _ _ I.runs hn
    · obtain ⟨h1, h2, h3, h4, h5⟩ := I.after h0
      simp only [Api.act, h2, takeAll_gone, ne_eq, not_true_eq_false, if_false, Option.some.injEq, Prod.mk.injEq] at hc
      obtain ⟨rfl, rfl⟩ := hc
      have : ({ a with piles := gone } : Api T) = a := by rw [← h2]
      rw [this]
      exact quiet _ rfl rfl rfl rfl
  | take e cut =>
    simp only [Api.act] at hc
    split at hc
    · cases hc
    rename_i m q hq
    split at hc
    · cases hc
    rename_i hrx
    split at hc
    · cases hc
    rename_i n hn
    simp only [Option.some.injEq, Prod.mk.injEq] at hc
    obtain ⟨rfl, rfl⟩ := hc
    have hs : starts h ≠ 0 := fun h0 => by
      obtain ⟨h1, _⟩ := I.before h0
      rw [h1] at hrx; exact hrx rfl
    have hd := down_arm (.inr ⟨_, _, _, rfl⟩) hn
    exact inv_step I hs hn (l := [m]) hq rfl rfl rfl rfl (fun _ => by rw [(I.after hs).2.2.1, hd]) (fun h => by rw [hd] at h; cases h)
  | inner x =>
    simp only [Api.act] at hc
    split at hc
    · rename_i hx
      split at hc
      · cases hc
      rename_i n hn
      simp only [Option.some.injEq, Prod.mk.injEq] at hc
      obtain ⟨rfl, rfl⟩ := hc
      have hs : starts h ≠ 0 := fun h0 => by
        obtain ⟨h1, _⟩ := I.before h0
        rw [h1] at hx; exact absurd hx.2 (by simp [full])
      have hd := down_arm (.inl hx.1) hn
      exact inv_step I hs hn (l := []) rfl rfl rfl rfl rfl (fun h => absurd rfl h) (fun h => by rw [hd] at h; cases h)
    · cases hc
  | abort =>
    simp only [Api.act] at hc
    split at hc
    · cases hc
    rename_i hrx
    split at hc
    · cases hc
    rename_i n hn
    simp only [Option.some.injEq, Prod.mk.injEq] at hc
    obtain ⟨rfl, rfl⟩ := hc
    have hs : starts h ≠ 0 := fun h0 => by
      obtain ⟨h1, _⟩ := I.before h0
      rw [h1] at hrx; exact hrx rfl
    have hn' : n.down = true := by simp only [NodeSys.act, Option.some.injEq] at hn; subst hn; rfl
    exact inv_step I hs hn (l := []) rfl rfl rfl rfl rfl (fun h => absurd rfl h) (fun _ => hn')

theorem inv_calls {addr : Address} {n0 : NodeSys T} : ∀ (cs : List (Call T)) (a b : Api T) (h h' : List (Call T × Ret T)), Inv addr n0 a h →
    a.calls addr cs = some (b, h') → Inv addr n0 b (h ++ h') := by
  intro cs
  induction cs with
  | nil => intro a b h h' I hc; cases hc; simpa using I
  | cons c cs ih =>
    intro a b h h' I hc
    simp only [Api.calls] at hc
    split at hc
    · cases hc
    rename_i a' r hr
    split at hc
    · cases hc
    rename_i b' h2 hb
    simp only [Option.some.injEq, Prod.mk.injEq] at hc
    obtain ⟨rfl, rfl⟩ := hc
    have := ih a' b' (h ++ [(c, r)]) h2 (inv_act I hr) hb
    simpa using this

theorem inv_hist {addr : Address} {n0 : NodeSys T} {cs : List (Call T)} {a : Api T} {h : List (Call T × Ret T)}
    (hc : (Api.new addr n0).calls addr cs = some (a, h)) : Inv addr n0 a h := by
  simpa using inv_calls cs _ _ [] h (inv_new addr n0) hc

theorem upto_succ {addr : Address} (R : ApiRun T addr) (i : Nat) : R.upto (i + 1) = R.upto i ++ [(R.call i, R.ret i)] := by
  simp [ApiRun.upto, List.range_succ]

theorem inv_run {addr : Address} {n0 : NodeSys T} (R : ApiRun T addr) (h0 : R.st 0 = Api.new addr n0) : ∀ i, Inv addr n0 (R.st i) (R.upto i) := by
  intro i
  induction i with
  | zero => rw [h0]; exact inv_new addr n0
  | succ i ih => rw [upto_succ]; exact inv_act ih (R.next i)

end Overlord.ApiP

namespace Overlord.ApiP
open Spec

variable {T : Type} [ContentCodec T] [DecidableEq T]

theorem calls_append {addr : Address} : ∀ (cs ds : List (Call T)) {a b c : Api T} {h k : List (Call T × Ret T)}, a.calls addr cs = some (b, h) →
    b.calls addr ds = some (c, k) → a.calls addr (cs ++ ds) = some (c, h ++ k) := by
  intro cs
  induction cs with
  | nil => intro ds a b c h k h1 h2; cases h1; simpa using h2
  | cons x cs ih =>
    intro ds a b c h k h1 h2
    simp only [Api.calls, List.cons_append] at h1 ⊢
    split at h1
    · cases h1
    rename_i a' r hr
    split at h1
    · cases h1
    rename_i b' h' hb
    simp only [Option.some.injEq, Prod.mk.injEq] at h1
    obtain ⟨rfl, rfl⟩ := h1
    simp [ih ds hb h2]

theorem act_calls {addr : Address} {a b : Api T} {c : Call T} {r : Ret T} (h : a.act addr c = some (b, r)) : a.calls addr [c] = some (b, [(c, r)]) := by
  simp [Api.calls, h]

/-- A running object with an empty channel, or one whose run has ended. -/
structure Idle (a : Api T) : Prop where
  piles : a.piles = gone
  queue : a.queue = []
  closed : a.closed = a.node.down

theorem settle_idle {a : Api T} {n : NodeSys T} (hp : a.piles = gone) (hq : a.queue = []) (hc : a.closed = false ∨ n.down = true) : Idle (a.settle n) := by
  unfold Api.settle
  split
  · rename_i hd; exact ⟨hp, rfl, hd.symm⟩
  · rename_i hd
    refine ⟨hp, hq, ?_⟩
    simp only [Bool.not_eq_true] at hd
    rcases hc with h | h
    · exact h.trans hd.symm
    · rw [h] at hd; cases hd

theorem settle_node (a : Api T) (n : NodeSys T) : (a.settle n).node = n := by unfold Api.settle; split <;> rfl

/-- Every step but a start, made with calls. -/
theorem make_step {addr : Address} {a : Api T} {x : NAct T} {n : NodeSys T} (I : Idle a) (hx : ∀ p e cut, x ≠ .start p e cut) (h : a.node.act addr x = some n) :
    ∃ cs b k, a.calls addr cs = some (b, k) ∧ Idle b ∧ b.node = n ∧ nodeSteps k = [x] := by
  by_cases hi : x.isInner = true
  · have hd := down_arm (.inl hi) h
    refine ⟨[.inner x], a.settle n, [(.inner x, .done)], act_calls ?_, settle_idle I.piles I.queue (.inl (I.closed.trans hd)), settle_node _ _, rfl⟩
    simp [Api.act, hi, I.piles, gone, h]
  · cases x with
    | start p e cut => exact absurd rfl (hx p e cut)
    | crash =>
      have hn : n.down = true := by simp only [NodeSys.act, Option.some.injEq] at h; subst h; rfl
      refine ⟨[.abort], a.settle n, [(.abort, .done)], act_calls ?_, settle_idle I.piles I.queue (.inr hn), settle_node _ _, rfl⟩
      simp [Api.act, I.piles, gone, h]
    | arm arm e cut =>
      cases arm with
      | raw m =>
        have hd := down_arm (.inr ⟨_, _, _, rfl⟩) h
        have hc : a.closed = false := I.closed.trans hd
        refine ⟨[.send m] ++ [.take e cut], ({ a with queue := [] }).settle n, [(.send m, .ok)] ++ [(.take e cut, .took m)],
          calls_append _ _ (b := { a with queue := [m] }) (act_calls ?_) (act_calls ?_), settle_idle (a := { a with queue := [] }) I.piles rfl (.inl hc), settle_node _ _, rfl⟩
        · simp [Api.act, hc, I.queue]
        · simp [Api.act, I.piles, gone, h]
      | _ => simp [NAct.isInner] at hi
    | _ => simp [NAct.isInner] at hi

theorem make_run {addr : Address} : ∀ (as : List (NAct T)) {a : Api T} {n : NodeSys T}, Idle a → (∀ x ∈ as, ∀ p e cut, x ≠ .start p e cut) →
    a.node.run addr as = some n → ∃ cs b k, a.calls addr cs = some (b, k) ∧ b.node = n ∧ nodeSteps k = as := by
  intro as
  induction as with
  | nil => intro a n I _ h; cases h; exact ⟨[], a, [], rfl, rfl, rfl⟩
  | cons x as ih =>
    intro a n I hs h
    simp only [NodeSys.run] at h
    split at h
    · cases h
    rename_i n' hn
    obtain ⟨cs, b, k, h1, h2, h3, h4⟩ := make_step I (hs x (List.mem_cons_self ..)) hn
    rw [← h3] at h
    obtain ⟨ds, c, l, h5, h6, h7⟩ := ih h2 (fun y hy => hs y (List.mem_cons_of_mem _ hy)) h
    refine ⟨cs ++ ds, c, k ++ l, calls_append cs ds h1 h5, h6, ?_⟩
    have e1 : nodeSteps (k ++ l) = nodeSteps k ++ nodeSteps l := by simp [nodeSteps, List.filterMap_append]
    rw [e1, h4, h7, List.cons_append, List.nil_append]

theorem make_life {addr : Address} {n0 n : NodeSys T} {p : StartParams} {e : Env T} {cut : Option Nat} {as : List (NAct T)}
    (hs : ∀ x ∈ as, ∀ p e cut, x ≠ .start p e cut) (h : n0.run addr (.start p e cut :: as) = some n) :
    ∃ cs b k, (Api.new addr n0).calls addr cs = some (b, k) ∧ b.node = n ∧ nodeSteps k = .start p e cut :: as := by
  simp only [NodeSys.run] at h
  split at h
  · cases h
  rename_i n' hn
  have h1 : (Api.new addr n0).calls addr [.run p e cut] =
      some ((({ Api.new addr n0 with piles := gone } : Api T)).settle n', [(.run p e cut, .started)]) := by
    apply act_calls
    have hp : (Api.new addr n0).piles = full addr := rfl
    have hn' : (Api.new addr n0).node.act addr (.start p e cut) = some n' := hn
    simp only [Api.act, hp, takeAll_full, hn']
  have I : Idle ((({ Api.new addr n0 with piles := gone } : Api T)).settle n') := settle_idle rfl rfl (.inl rfl)
  rw [← settle_node ({ Api.new addr n0 with piles := gone } : Api T) n'] at h
  obtain ⟨ds, c, l, h5, h6, h7⟩ := make_run as I hs h
  exact ⟨_, c, _, calls_append _ ds h1 h5, h6, by simp [nodeSteps] at h7 ⊢; exact h7⟩

theorem inner_of_mem {addr : Address} : ∀ (cs : List (Call T)) (a : Api T) {b : Api T} {h : List (Call T × Ret T)} {x : NAct T}, a.calls addr cs = some (b, h) →
    (Call.inner x, Ret.done) ∈ h → x.isInner = true := by
  intro cs
  induction cs with
  | nil => intro a b h x hc hx; cases hc; cases hx
  | cons c cs ih =>
    intro a b h x hc hx
    simp only [Api.calls] at hc
    split at hc
    · cases hc
    rename_i a' r hr
    split at hc
    · cases hc
    rename_i b' h' hb
    simp only [Option.some.injEq, Prod.mk.injEq] at hc
    obtain ⟨rfl, rfl⟩ := hc
    rcases List.mem_cons.1 hx with he | hx
    · simp only [Prod.mk.injEq] at he
      obtain ⟨rfl, rfl⟩ := he
      simp only [Api.act] at hr
      split at hr
      · rename_i hi; exact hi.1
      · cases hr
    · exact ih a' hb hx

end Overlord.ApiP
