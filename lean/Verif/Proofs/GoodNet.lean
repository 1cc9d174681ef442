import Verif.Proofs.GoodNode4
import Verif.Proofs.NetInv

/-! A network in a good round. -/

set_option linter.unusedSimpArgs false
set_option linter.unusedVariables false
set_option linter.unusedSectionVars false

namespace Overlord.Good
open M Spec

variable {T : Type} {g : GoodRound T} {P P' : Option (SignedProposal T)} {q q' : VoteType → Prop} {a : Address} {D D' : OverlordMsg T → Prop}
  {L L' : List (Effect T)}

theorem NodeIn.less {n : NodeSys T} (h : NodeIn g P q a D L n) (hD : ∀ m, D' m → D m) : NodeIn g P q a D' L n :=
  ⟨{ h.core with got := fun m hm => h.core.got m (hD m hm) }, h.prog, h.shape⟩

/-- A live node. -/
def NodeAny (g : GoodRound T) (P : Option (SignedProposal T)) (q : VoteType → Prop) (a : Address) (D : OverlordMsg T → Prop)
    (L : List (Effect T)) (n : NodeSys T) : Prop :=
  NodeIn g P q a D L n ∨ NodeOut g P q a L n

theorem NodeAny.less {n : NodeSys T} (h : NodeAny g P q a D L n) (hD : ∀ m, D' m → D m) : NodeAny g P q a D' L n :=
  h.imp (·.less hD) id

theorem NodeAny.mono {n : NodeSys T} (h : NodeAny g P q a D L n) (hP : ∀ sp, P = some sp → P' = some sp) (hq : ∀ ty, q ty → q' ty)
    (ha : a = g.leader → P' = P) : NodeAny g P' q' a D L n :=
  h.imp (·.mono hP hq ha) (·.mono hP hq)

theorem NodeAny.sends {n : NodeSys T} (h : NodeAny g P q a D L n) : Sends g P a L := by
  rcases h with h | h
  exacts [h.core.sends, h.sends]

section
variable [ContentCodec T] [DecidableEq T]

/-- One step of a live node. -/
theorem node_step (hg : g.Ok) (hE : Encodes T) {N0 N : NetSys T} {n' : NodeSys T} {x : NAct T}
    (h : NodeAny g P q a D L (N.nodes a)) (hP : ∀ sp, P = some sp → IsProp g sp)
    (hD : ∀ m, D m → m.getHeight? = some g.height ∧ msgRound m = g.round ∧ OfLive g m ∧
      ∃ c, g.live c = true ∧ SentTo N0 N c a m)
    (hlv : ∀ m, m.getHeight? = some g.height → (∃ c, g.live c = true ∧ SentTo N0 N c a m) →
      (N.nodes a).st.height = g.height → MsgOk g P q (N.nodes a).st m)
    (hD' : ∀ m, D' m → D m ∨ m.getHeight? = some g.height ∧ ∃ e, x = .arm (.raw m) e none)
    (hs : GoodStep g N0 N a x) (hx : (N.nodes a).act a x = some n') :
    ∃ eff P', n'.log = (N.nodes a).log ++ eff ∧ (∀ sp, P = some sp → P' = some sp) ∧
    (P' ≠ P → a = g.leader ∧ ∃ sp, P' = some sp ∧ IsProp g sp ∧ .broadcast (.signedProposal sp) ∈ eff) ∧
    NodeAny g P' (newQ g q eff) a D' (L ++ eff) n' := by
  have down : (∀ m e, x ≠ .arm (.raw m) e none) → ∀ m, D' m → D m := by
    intro h1 m hm
    rcases hD' m hm with h2 | ⟨_, e, h2⟩
    · exact h2
    · exact absurd h2 (h1 m e)
  have fin : (∀ m e, x ≠ .arm (.raw m) e none) → Goes g P q a D L (N.nodes a) n' → ∃ eff P', n'.log = (N.nodes a).log ++ eff ∧ (∀ sp, P = some sp → P' = some sp) ∧
    (P' ≠ P → a = g.leader ∧ ∃ sp, P' = some sp ∧ IsProp g sp ∧ .broadcast (.signedProposal sp) ∈ eff) ∧
    NodeAny g P' (newQ g q eff) a D' (L ++ eff) n' := by
    rintro h1 ⟨eff, P', h2, h3, h4, h5⟩
    exact ⟨eff, P', h2, h3, h4, NodeAny.less h5 (down h1)⟩
  rcases h with h | h
  · cases x with
    | arm y e cut =>
      cases y with
      | raw m =>
        obtain ⟨he, rfl, h1, h2⟩ := hs
        obtain ⟨⟨eff, h3, h4, h5⟩, h6⟩ := h.raw h1 h2 hx
        refine ⟨eff, P, h3, fun _ h => h, fun h => absurd rfl h, .inl ?_⟩
        refine ((h6 _ (h.logged h4 h5)).mono (fun _ h => h) (fun _ h => .inl h) (fun _ => rfl)).less fun m' hm => ?_
        rcases hD' m' hm with h7 | ⟨h7, e', h8⟩
        · exact .inl h7
        · cases h8
          exact .inr ⟨rfl, h7⟩
      | event => obtain ⟨he, rfl⟩ := hs; exact fin (by simp) (h.event hg he hE hP hx)
      | resp => obtain ⟨he, rfl⟩ := hs; exact fin (by simp) (.stay (h.resp hg he hx))
      | verified => obtain ⟨he, rfl⟩ := hs; exact fin (by simp) (.stay (h.verified hg he hP (fun m hm => ⟨(hD m hm).1, (hD m hm).2.1, (hD m hm).2.2.1⟩) hx))
    | verifyDone c i =>
      refine fin (by simp) (.silent (h.verifyDone (fun m hm => (hD m hm).1) (fun m au hi hh => ?_) hx))
      have hht := h.core.st.height
      obtain ⟨h1, h2⟩ := hs m au hi hht hh
      refine ⟨fun hd => h1 (hD m hd).2.2.2, fun hv => ?_⟩
      rcases h2 hv with h3 | h3 | ⟨h3, h4⟩
      · exact hlv m hh h3 hht
      · obtain ⟨k2, k3⟩ := h.core.vfy _ (List.mem_of_getElem? hi)
        exact .inr (.inr (.inr ⟨k2, k3, .inr (.inl h3)⟩))
      · obtain ⟨k2, k3⟩ := h.core.vfy _ (List.mem_of_getElem? hi)
        exact .bearable _ k2 k3 h3 h4
    | checkDone i ok =>
      have : ok = true := hs
      subst this
      exact fin (by simp) (.silent (h.checkDone hx))
    | smr => exact fin (by simp) (.silent (h.smr hg hx))
    | set => exact fin (by simp) (.silent (h.set hx))
    | expire i => exact fin (by simp) (.silent (h.expire hx))
    | fire i => exact hs.elim
    | crash => exact hs.elim
    | start p e cut => exact hs.elim
  · obtain ⟨eff, h1, h2⟩ := h.act (by rintro p e cut rfl; exact hs) (by
      rintro y e cut rfl
      cases y with
      | raw m => exact hs.2.1
      | _ => exact hs.2) hx
    exact ⟨eff, P, h1, fun _ h => h, fun h => absurd rfl h, .inr (h2.mono (fun _ h => h) (fun _ h => .inl h))⟩

/-- Certificates of live nodes. -/
def qNet (g : GoodRound T) (N0 N : NetSys T) (ty : VoteType) : Prop :=
  ∃ c qc, g.live c = true ∧ GoodQc g ty qc ∧ .broadcast (.aggregatedVote qc) ∈ doneSince N0 N c

/-- Messages that arrived after they had been sent. -/
def dNet (g : GoodRound T) (N0 : NetSys T) (as : List (Address × NAct T)) (a : Address) (m : OverlordMsg T) : Prop :=
  m.getHeight? = some g.height ∧ ∃ c, g.live c = true ∧ Arrived N0 as c a m

/-- The invariant of the network. -/
structure NetGood (g : GoodRound T) (P : Option (SignedProposal T)) (N0 : NetSys T) (as : List (Address × NAct T)) (N : NetSys T) : Prop where
  log : ∀ a, g.live a = true → (N0.nodes a).log <+: (N.nodes a).log
  sent : ∀ c a m, g.live c = true → Arrived N0 as c a m → SentTo N0 N c a m
  prop : ∀ sp, P = some sp → IsProp g sp ∧ .broadcast (.signedProposal sp) ∈ doneSince N0 N g.leader
  nodes : ∀ a, g.live a = true → NodeAny g P (qNet g N0 N) a (dNet g N0 as a) (doneSince N0 N a) (N.nodes a)

theorem NetGood.round {N0 N : NetSys T} {as : List (Address × NAct T)} (h : NetGood g P N0 as N) {c : Address} {m : OverlordMsg T}
    (hc : g.live c = true) (hm : SentTo N0 N c a m) (hh : m.getHeight? = some g.height) :
    msgRound m = g.round ∧ OfLive g m := by
  have hs := (h.nodes c hc).sends
  rcases hm with hm | hm
  · rcases hs.bc m hm hh with ⟨ty, qc, rfl, h2, h3⟩ | ⟨sp, rfl, h2⟩
    · exact ⟨h2.2.1, by simp, by simp⟩
    · refine ⟨(h.prop sp h2).1.2.1, by simp, ?_⟩
      rintro sp' h3
      cases h3
      exact (h.prop sp h2).1.2.2.2.2.2
  · obtain ⟨rfl, ty, sv, rfl, h2, h3, h4⟩ := hs.tr _ m hm hh
    refine ⟨by simp [msgRound, h3], ?_, by simp⟩
    rintro sv' h5
    cases h5
    rw [h2]; exact hc

theorem NetGood.msgOk {N0 N : NetSys T} {as : List (Address × NAct T)} (h : NetGood g P N0 as N) (ha : g.live a = true) {m : OverlordMsg T}
    (hh : m.getHeight? = some g.height) (hm : ∃ c, g.live c = true ∧ SentTo N0 N c a m) (hht : (N.nodes a).st.height = g.height) :
    MsgOk g P (qNet g N0 N) (N.nodes a).st m := by
  obtain ⟨c, hc, hm⟩ := hm
  have hs := (h.nodes c hc).sends
  rcases hm with hm | hm
  · rcases hs.bc m hm hh with ⟨ty, qc, rfl, h2, h3⟩ | ⟨sp, rfl, h2⟩
    · exact .inr (.inl ⟨ty, qc, rfl, h2, ⟨c, qc, hc, h2, hm⟩, h3⟩)
    · exact .inl ⟨sp, rfl, h2⟩
  · obtain ⟨rfl, ty, sv, rfl, h2, h3, h4⟩ := hs.tr _ m hm hh
    refine .inr (.inr (.inl ⟨sv, rfl, ?_, fun _ => ⟨⟨ty, h3⟩, h4⟩⟩))
    rcases h.nodes _ ha with h5 | h5
    · rcases h5.shape with h6 | ⟨_, _, _, _, h6, _⟩
      · exact h6.round
      · exact absurd (h6 rfl) h4
    · have := h5.height; omega

theorem act_nodes {N N' : NetSys T} {b : Address} {x : NAct T} (h : N.act b x = some N') :
    ∃ n', (N.nodes b).act b x = some n' ∧ ∀ a, N'.nodes a = if a = b then n' else N.nodes a := by
  unfold NetSys.act at h
  split at h
  · cases h
  · rename_i n' hn
    cases h
    exact ⟨n', hn, fun a => rfl⟩

theorem run_append {N N1 : NetSys T} {as as' : List (Address × NAct T)} (h : N.run as = some N1) : N.run (as ++ as') = N1.run as' := by
  induction as generalizing N with
  | nil => cases h; rfl
  | cons x xs ih =>
    obtain ⟨b, x⟩ := x
    simp only [NetSys.run, List.cons_append] at h ⊢
    split at h
    · cases h
    · rename_i N' hN
      exact ih h

omit [ContentCodec T] [DecidableEq T] in
theorem split_last {α : Type _} {l l1 l2 : List α} {x y : α} (h : l ++ [x] = l1 ++ y :: l2) : (l = l1 ∧ x = y ∧ l2 = []) ∨ ∃ l3, l = l1 ++ y :: l3 := by
  rcases List.eq_nil_or_concat l2 with h2 | ⟨l3, z, h2⟩
  · subst h2
    have := List.append_inj' h rfl
    exact .inl ⟨this.1, by simpa using this.2, rfl⟩
  · subst h2
    have h' : l ++ [x] = (l1 ++ y :: l3) ++ [z] := by rw [h]; simp
    exact .inr ⟨l3, (List.append_inj' h' rfl).1⟩

/-- One step of the network. -/
theorem NetGood.step (hg : g.Ok) (hE : Encodes T) {N0 N N' : NetSys T} {as : List (Address × NAct T)} {b : Address} {x : NAct T}
    (h : NetGood g P N0 as N) (hrun : N0.run as = some N) (hs : g.live b = true → GoodStep g N0 N b x) (hx : N.act b x = some N') :
    ∃ P', NetGood g P' N0 (as ++ [(b, x)]) N' := by
  obtain ⟨n', hn, hN⟩ := act_nodes hx
  have arr : ∀ c a m, Arrived N0 (as ++ [(b, x)]) c a m → Arrived N0 as c a m ∨ (a = b ∧ (∃ e, x = .arm (.raw m) e none) ∧ SentTo N0 N c a m) := by
    rintro c a m ⟨as1, e, as2, N1, h1, h2, h3⟩
    rcases split_last h1 with ⟨rfl, h4, rfl⟩ | ⟨l3, rfl⟩
    · cases h4
      rw [hrun] at h2
      cases h2
      exact .inr ⟨rfl, ⟨e, rfl⟩, h3⟩
    · exact .inl ⟨as1, e, l3, N1, rfl, h2, h3⟩
  by_cases hb : g.live b = true
  · obtain ⟨eff, P', k1, k2, k3, k4⟩ := node_step (D' := dNet g N0 (as ++ [(b, x)]) b) hg hE (h.nodes b hb) (fun sp hp => (h.prop sp hp).1)
      (fun m hm => by
        obtain ⟨h1, c, hc, h2⟩ := hm
        have h3 := h.sent c b m hc h2
        obtain ⟨h4, h5⟩ := h.round hc h3 h1
        exact ⟨h1, h4, h5, c, hc, h3⟩)
      (fun m hh hm hht => h.msgOk hb hh hm hht)
      (fun m hm => by
        obtain ⟨h1, c, hc, h2⟩ := hm
        rcases arr c b m h2 with h3 | ⟨_, h3, _⟩
        · exact .inl ⟨h1, c, hc, h3⟩
        · exact .inr ⟨h1, h3⟩) (hs hb) hn
    have hlog : doneSince N0 N' b = doneSince N0 N b ++ eff := by
      unfold doneSince
      rw [hN b, if_pos rfl, k1]
      obtain ⟨t, ht⟩ := h.log b hb
      rw [← ht]; simp
    have hlog' : ∀ c, c ≠ b → doneSince N0 N' c = doneSince N0 N c := by
      intro c hc
      unfold doneSince
      rw [hN c, if_neg hc]
    have hmono : ∀ c, ∀ y ∈ doneSince N0 N c, y ∈ doneSince N0 N' c := by
      intro c y hy
      by_cases hc : c = b
      · subst hc; rw [hlog]; exact List.mem_append.2 (.inl hy)
      · rw [hlog' c hc]; exact hy
    have hq : ∀ ty, qNet g N0 N ty → qNet g N0 N' ty := fun ty ⟨c, qc, h1, h2, h3⟩ => ⟨c, qc, h1, h2, hmono c _ h3⟩
    have hsent : ∀ c a m, SentTo N0 N c a m → SentTo N0 N' c a m := fun c a m h => h.imp (hmono c _) (hmono c _)
    refine ⟨P', ?_, ?_, ?_, ?_⟩
    · intro c hc
      rw [hN c]
      split
      · rename_i hcb
        subst hcb
        rw [k1]
        exact (h.log c hc).trans (List.prefix_append _ _)
      · exact h.log c hc
    · intro c a m hc hm
      rcases arr c a m hm with h1 | ⟨_, _, h1⟩
      · exact hsent c a m (h.sent c a m hc h1)
      · exact hsent c a m h1
    · intro sp hp
      by_cases hPP : P' = P
      · rw [hPP] at hp
        exact ⟨(h.prop sp hp).1, hmono _ _ (h.prop sp hp).2⟩
      · obtain ⟨h1, sp', h2, h3, h4⟩ := k3 hPP
        rw [hp] at h2
        cases h2
        refine ⟨h3, ?_⟩
        rw [← h1, hlog]; exact List.mem_append.2 (.inr h4)
    · intro c hc
      by_cases hcb : c = b
      · subst hcb
        rw [hN c, if_pos rfl, hlog]
        refine k4.mono (fun _ h => h) (fun ty ht => ?_) (fun _ => rfl)
        rcases ht with ht | ⟨qc, h1, h2⟩
        · exact hq ty ht
        · exact ⟨c, qc, hc, h2, by rw [hlog]; exact List.mem_append.2 (.inr h1)⟩
      · rw [hN c, if_neg hcb, hlog' c hcb]
        refine ((h.nodes c hc).mono k2 hq (fun hcl => ?_)).less fun m hm => ?_
        · refine Decidable.by_contra fun hPP => ?_
          exact hcb (hcl.trans (k3 hPP).1.symm)
        · obtain ⟨h1, c', hc', h2⟩ := hm
          rcases arr c' c m h2 with h3 | ⟨h3, _⟩
          · exact ⟨h1, c', hc', h3⟩
          · exact absurd h3 hcb
  · have hne : ∀ c, g.live c = true → c ≠ b := by rintro c hc rfl; exact hb hc
    have hlog' : ∀ c, g.live c = true → doneSince N0 N' c = doneSince N0 N c := by
      intro c hc
      unfold doneSince
      rw [hN c, if_neg (hne c hc)]
    have hq : ∀ ty, qNet g N0 N ty → qNet g N0 N' ty := fun ty ⟨c, qc, h1, h2, h3⟩ => ⟨c, qc, h1, h2, by rw [hlog' c h1]; exact h3⟩
    refine ⟨P, ?_, ?_, ?_, ?_⟩
    · intro c hc
      rw [hN c, if_neg (hne c hc)]; exact h.log c hc
    · intro c a m hc hm
      unfold SentTo
      rw [hlog' c hc]
      rcases arr c a m hm with h1 | ⟨_, _, h1⟩
      · exact h.sent c a m hc h1
      · exact h1
    · intro sp hp
      rw [hlog' _ hg.leads]; exact h.prop sp hp
    · intro c hc
      rw [hN c, if_neg (hne c hc), hlog' c hc]
      refine ((h.nodes c hc).mono (fun _ h => h) hq (fun _ => rfl)).less fun m hm => ?_
      obtain ⟨h1, c', hc', h2⟩ := hm
      rcases arr c' c m h2 with h3 | ⟨h3, _⟩
      · exact ⟨h1, c', hc', h3⟩
      · exact absurd h3 (hne c hc)

/-- All steps. -/
theorem NetGood.run (hg : g.Ok) (hE : Encodes T) {N0 N N' : NetSys T} {as as' : List (Address × NAct T)}
    (h : NetGood g P N0 as N) (hrun : N0.run as = some N) (ha : AlongNet (fun N b x => g.live b = true → GoodStep g N0 N b x) N as')
    (hr : N.run as' = some N') : ∃ P', NetGood g P' N0 (as ++ as') N' := by
  induction as' generalizing as N P with
  | nil => cases hr; rw [List.append_nil]; exact ⟨P, h⟩
  | cons y ys ih =>
    obtain ⟨b, x⟩ := y
    simp only [NetSys.run] at hr
    split at hr
    · cases hr
    · rename_i N1 hN
      obtain ⟨h1, h2⟩ := ha
      obtain ⟨P', h3⟩ := h.step hg hE hrun h1 hN
      have := ih h3 (by rw [run_append hrun]; simp [NetSys.run, hN]) (h2 N1 hN) hr
      rwa [List.append_assoc] at this

end

end Overlord.Good
