import Verif.Proofs.OrderInv

/-!
The State takes up the orders of the voting state machine in the round they are for (used for C53): networks.
-/

set_option linter.unusedSimpArgs false
set_option linter.unusedVariables false
set_option linter.unusedSectionVars false
set_option linter.unnecessarySeqFocus false

namespace Overlord
open M Spec

variable {T : Type} [ContentCodec T] [DecidableEq T]

namespace Rdy

/-- What is known when the State takes up an order to enter a round. -/
theorem NetReady.enters {f : Hash → Nat × T} {lists : Nat → List Node} {correct : Address → Bool} {N : NetSys T} {mode : LeaderMode}
    {leader : Nat → Nat → Address} (hE : Encodes T) (few : FewFaulty lists correct) (hL : LeadersExist lists mode leader)
    (h : NetReady f lists correct N) {a : Address} (hc : correct a = true) (hd : (N.nodes a).down = false)
    (hp : (N.nodes a).st.consensusPower = true) (hs : (N.nodes a).st.stopped = false) {e : Env T} (hm : e.mode = mode)
    (hsv : ∀ b, e.walSave b = true) {r : Nat} {lr : Option Nat} {lp : Option Hash} {fr : FromWhere} {ni : Option Nat}
    {nc : Option DurationConfig} {q : List SMREvent}
    (hq : (N.nodes a).stQ = .newRoundInfo (N.nodes a).st.height r lr lp fr ni nc :: q) :
    Carry.Entered e (N.nodes a).st r lr lp fr (leader (N.nodes a).st.height r)
      (runArm (.event (.newRoundInfo (N.nodes a).st.height r lr lp fr ni nc)) e ⟨(N.nodes a).st, []⟩).2 ∧
    ∀ x, lp = some x → Known (N.nodes a).st x := by
  obtain ⟨h1, h2⟩ := (h.node a hc).up hd
  have hev : EReady f (Certified lists correct N.votes) (N.nodes a).st (.newRoundInfo (N.nodes a).st.height r lr lp fr ni nc) :=
    h2.ev (.newRoundInfo (N.nodes a).st.height r lr lp fr ni nc) (by rw [hq]; exact List.mem_cons_self ..)
  obtain ⟨_, g2, g3⟩ := hev
  have hst := ((h.gen.gen a hc).up hd).st.1
  have hiso : lr.isSome = lp.isSome := by
    rcases g2 with ⟨rfl, rfl⟩ | ⟨l, x, rfl, rfl, _⟩ <;> rfl
  have hrefs : LockRefs f (Certified lists correct N.votes) (N.nodes a).st (N.nodes a).st.height lr := by
    intro l hl
    rcases g2 with ⟨rfl, rfl⟩ | ⟨l', x, rfl, rfl, g⟩
    · cases hl
    · cases hl; exact ⟨x, g⟩
  refine ⟨?_, ?_⟩
  · refine event_post hp hs ?_
    unfold handleEvent
    wps
    refine wp_mono (Carry.newRound hE hsv hiso (h.lock few hc hd hp hrefs) (fromStored_of (g3 rfl)) (p := leader (N.nodes a).st.height r) ?_)
      (fun _ _ o => o) (fun _ _ o => ⟨fun _ => o, fun _ => o⟩)
    rw [hst.auth hp, hm]
    exact hL _ _
  · intro x hx
    rcases g2 with ⟨rfl, rfl⟩ | ⟨l', y, rfl, rfl, g⟩
    · cases hx
    · cases hx; exact (g.2.2 rfl).2

theorem netOrd_step {f : Hash → Nat × T} {lists : Nat → List Node} {correct : Address → Bool} {mode : LeaderMode} {leader : Nat → Nat → Address}
    (hE : Encodes T) (few : FewFaulty lists correct) (hL : LeadersExist lists mode leader)
    {N N' : NetSys T} {a : Address} {x : NAct T} (h : NetReady f lists correct N)
    (ho : ∀ b, correct b = true → (N.nodes b).down = false → NodeOrd leader (N.nodes b))
    (ok : correct a = true → NetStep lists correct N a x ∧ OrderStep f mode N a x)
    (ha : N.act a x = some N') : ∀ b, correct b = true → (N'.nodes b).down = false → NodeOrd leader (N'.nodes b) := by
  unfold NetSys.act at ha
  split at ha
  · cases ha
  rename_i n' hn
  cases ha
  intro b hb hup
  by_cases hba : b = a
  swap
  · simp only [if_neg hba] at hup ⊢; exact ho b hb hup
  subst hba
  simp only [if_true] at hup ⊢
  obtain ⟨ok1, ok2⟩ := ok hb
  have inv := h.inv b hb
  have hu : ∀ (g1 : ∀ p e c, x ≠ .start p e c), (N.nodes b).down = false := by
    intro g1
    cases hd : (N.nodes b).down with
    | false => rfl
    | true =>
      cases x with
      | start p e c => exact absurd rfl (g1 p e c)
      | crash =>
        simp only [NodeSys.act, Option.some.injEq] at hn
        subst hn; simp at hup
      | _ => simp [NodeSys.act, hd] at hn
  cases x with
  | start p e cut =>
    obtain ⟨hd, hc⟩ := start_act hn
    rcases hc with ⟨h1, _⟩ | ⟨_, _, _, h4⟩
    · rw [h1] at hup; cases hup
    · rw [h4] at hup ⊢
      refine start_ord ?_ (start_out e _) hup
      intro rec bb hli hl hdec
      have s1 := ok1.start
      have s2 := ok1.given.2 hli
      simp only [StartOk, hli, if_true] at s1
      split at s1
      · rw [s1] at hl; cases hl
      · rename_i w hw
        rw [hw] at s2
        obtain ⟨t1, b', t2, t3⟩ := s1
        rw [t2] at hl; cases hl
        rw [t3] at hdec; cases hdec
        refine ⟨t1, ?_⟩
        rw [s2, show e.mode = mode from ok2.mode]
        exact hL _ _
  | crash =>
    simp only [NodeSys.act, Option.some.injEq] at hn
    subst hn; simp at hup
  | arm x e cut =>
    have hd := hu (by simp)
    simp only [NodeSys.act, hd, Bool.false_eq_true, if_false] at hn
    split at hn
    · cases hn
    · rename_i i n1 ht
      cases hn
      refine ord_arm (ho b hb hd) (inv.live hd).smrLe ok1.inSync ?_ ht hup
      rintro rfl h0 r lr lp fr ni nc q hq rfl hp hs
      have hen := (h.enters hE few hL hb hd hp hs ok2.mode ok1.saves hq).1
      have hpos := event_out e (N.nodes b).st (.newRoundInfo (N.nodes b).st.height r lr lp fr ni nc) hp hs
      generalize (runArm (.event (.newRoundInfo (N.nodes b).st.height r lr lp fr ni nc)) e ⟨(N.nodes b).st, []⟩).2 = w at *
      cases hpos with
      | newRound _ _ _ _ _ _ _ o =>
        left
        rw [hen.leader, hen.isLeader, o.same.height, o.same.address, hen.round]
        exact ⟨rfl, rfl⟩
  | smr =>
    have hd := hu (by simp)
    have hl := inv.live hd
    have ho := ho b hb hd
    simp only [NodeSys.act] at hn
    split at hn
    · cases hn
    · split at hn
      · cases hn
      · rename_i t q hq
        have hw := (hl.trig t (by rw [hq]; simp)).1
        split at hn
        · cases hn
        · rename_i sys hs
          cases hn
          simp only [TimerSys.act, hq] at hs
          split at hs
          · cases hs; exact ord_trigger ho hw rfl rfl rfl
          · cases hs; exact ord_trigger ho hw rfl rfl rfl
          · cases hs
          · cases hs
  | verifyDone c i =>
    have ho := ho b hb (hu (by simp))
    simp only [NodeSys.act] at hn
    split at hn
    · cases hn
    · split at hn
      · cases hn
      · cases hn; exact ord_frame ho rfl rfl rfl
  | checkDone i okb =>
    have ho := ho b hb (hu (by simp))
    simp only [NodeSys.act] at hn
    split at hn
    · cases hn
    · split at hn
      · cases hn
      · cases hn; exact ord_frame ho rfl rfl rfl
  | set =>
    have ho := ho b hb (hu (by simp))
    simp only [NodeSys.act] at hn
    split at hn
    · cases hn
    · obtain ⟨sys, hs, rfl⟩ := Option.map_eq_some_iff.1 hn
      simp only [TimerSys.act] at hs
      split at hs
      · cases hs
      · cases hs
      · cases hs; exact ord_frame ho rfl rfl rfl
  | expire i =>
    have ho := ho b hb (hu (by simp))
    simp only [NodeSys.act] at hn
    split at hn
    · cases hn
    · obtain ⟨sys, hs, rfl⟩ := Option.map_eq_some_iff.1 hn
      simp only [TimerSys.act] at hs
      split at hs
      · cases hs
      · cases hs; exact ord_frame ho rfl rfl rfl
  | fire i =>
    have ho := ho b hb (hu (by simp))
    simp only [NodeSys.act] at hn
    split at hn
    · cases hn
    · obtain ⟨sys, hs, rfl⟩ := Option.map_eq_some_iff.1 hn
      simp only [TimerSys.act] at hs
      split at hs
      · cases hs
      · cases hs; exact ord_frame ho rfl rfl rfl

/-- What is known about a network. -/
theorem net_orders {f : Hash → Nat × T} {lists : Nat → List Node} {correct : Address → Bool} {mode : LeaderMode} {leader : Nat → Nat → Address}
    (hE : Encodes T) (hgl : GoodLists lists) (few : FewFaulty lists correct) (hL : LeadersExist lists mode leader)
    {as : List (Address × NAct T)} {N : NetSys T} (hr : NetSys.new.run as = some N) (ok : OrderSchedule f lists correct mode as) :
    NetReady f lists correct N ∧ ∀ b, correct b = true → (N.nodes b).down = false → NodeOrd leader (N.nodes b) := by
  have key : ∀ (as : List (Address × NAct T)) (N N' : NetSys T), NetReady f lists correct N →
      (∀ b, correct b = true → (N.nodes b).down = false → NodeOrd leader (N.nodes b)) →
      AlongNet (fun N a x => correct a = true → NetStep lists correct N a x ∧ OrderStep f mode N a x) N as → N.run as = some N' →
      NetReady f lists correct N' ∧ ∀ b, correct b = true → (N'.nodes b).down = false → NodeOrd leader (N'.nodes b) := by
    intro as
    induction as with
    | nil => intro N N' h ho _ hr; simp only [NetSys.run, Option.some.injEq] at hr; exact hr ▸ ⟨h, ho⟩
    | cons y as ih =>
      obtain ⟨a, x⟩ := y
      intro N N' h ho ok hr
      simp only [NetSys.run] at hr
      split at hr
      · cases hr
      · rename_i N1 h1
        exact ih N1 N' (netReady_step hgl few h ok.1 h1) (netOrd_step hE few hL h ho ok.1 h1) (ok.2 N1 h1) hr
  exact key as _ N (netReady_new f lists correct) (by simp [NetSys.new, NodeSys.new, NodeSys.fresh]) ok hr

end Rdy
end Overlord
