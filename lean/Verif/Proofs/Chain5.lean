import Verif.Proofs.Chain4

/-! A network that carries out the plan. -/

set_option linter.unusedSimpArgs false
set_option linter.unusedVariables false
set_option linter.unusedSectionVars false

namespace Overlord.Chain
open M Spec Good

variable {T : Type} [ContentCodec T] [DecidableEq T]

/-- The invariant of the network. -/
structure NetChain (g : Nat → GoodRound T) (K : Nat) (P : Nat → Option (SignedProposal T)) (N0 : NetSys T) (as : List (Address × NAct T)) (N : NetSys T) : Prop where
  log : ∀ a, (g 0).live a = true → (N0.nodes a).log <+: (N.nodes a).log
  sent : ∀ c a m, (g 0).live c = true → Arrived N0 as c a m → SentTo N0 N c a m
  prop : ∀ k, k < K → ∀ sp, P k = some sp → IsProp (g k) sp ∧ .broadcast (.signedProposal sp) ∈ doneSince N0 N (g k).leader
  nodes : ∀ a, (g 0).live a = true → NodeAt g K P (fun k => qNet (g k) N0 N) a (fun k => dNet (g k) N0 as a) (doneSince N0 N a) (N.nodes a)

variable {g : Nat → GoodRound T} {K : Nat} {P P' : Nat → Option (SignedProposal T)} {a : Address} {N0 N : NetSys T} {as : List (Address × NAct T)} {k : Nat}

theorem NetChain.round (hp : Plan g K) (h : NetChain g K P N0 as N) (hk : k < K) {c : Address} {m : OverlordMsg T}
    (hc : (g 0).live c = true) (hm : SentTo N0 N c a m) (hh : m.getHeight? = some (g k).height) :
    msgRound m = (g k).round ∧ OfLive (g k) m := by
  have hs := (h.nodes c hc).sends hk
  rcases hm with hm | hm
  · rcases hs.bc m hm hh with ⟨ty, qc, rfl, h2, h3⟩ | ⟨sp, rfl, h2⟩
    · exact ⟨h2.2.1, by simp, by simp⟩
    · refine ⟨(h.prop k hk sp h2).1.2.1, by simp, ?_⟩
      rintro sp' h3
      cases h3
      exact (h.prop k hk sp h2).1.2.2.2.2.2
  · obtain ⟨rfl, ty, sv, rfl, h2, h3, h4⟩ := hs.tr _ m hm hh
    refine ⟨by simp [msgRound, h3], ?_, by simp⟩
    rintro sv' h5
    cases h5
    rw [h2, hp.live k]; exact hc

theorem NetChain.msgOk (hp : Plan g K) (h : NetChain g K P N0 as N) (hk : k < K) {D : Nat → OverlordMsg T → Prop} {L : List (Effect T)}
    (hat : At g K P (fun k => qNet (g k) N0 N) a D L (N.nodes a) k) {m : OverlordMsg T}
    (hh : m.getHeight? = some (g k).height) (hm : ∃ c, (g 0).live c = true ∧ SentTo N0 N c a m) :
    Good.MsgOk (g k) (P k) (qNet (g k) N0 N) (N.nodes a).st m := by
  obtain ⟨c, hc, hm⟩ := hm
  have hs := (h.nodes c hc).sends hk
  rcases hm with hm | hm
  · rcases hs.bc m hm hh with ⟨ty, qc, rfl, h2, h3⟩ | ⟨sp, rfl, h2⟩
    · exact .inr (.inl ⟨ty, qc, rfl, h2, ⟨c, qc, by rw [hp.live k]; exact hc, h2, hm⟩, h3⟩)
    · exact .inl ⟨sp, rfl, h2⟩
  · obtain ⟨rfl, ty, sv, rfl, h2, h3, h4⟩ := hs.tr _ m hm hh
    refine .inr (.inr (.inl ⟨sv, rfl, ?_, fun _ => ⟨⟨ty, h3⟩, h4⟩⟩))
    obtain ⟨n1, ⟨D1, v1⟩, v2, _⟩ := hat.view
    rw [← v2]
    rcases v1.shape with h6 | ⟨_, _, _, _, h6, _⟩
    · exact h6.round
    · exact absurd (h6 rfl) h4

/-- One step of the network. -/
theorem NetChain.step (hp : Plan g K) (hE : Encodes T) {N' : NetSys T} {b : Address} {x : NAct T}
    (h : NetChain g K P N0 as N) (hrun : N0.run as = some N) (hs : (g 0).live b = true → ChainStep g K N0 N b x) (hx : N.act b x = some N') :
    ∃ P', NetChain g K P' N0 (as ++ [(b, x)]) N' := by
  obtain ⟨n', hn, hN⟩ := act_nodes hx
  have arr : ∀ c a m, Arrived N0 (as ++ [(b, x)]) c a m → Arrived N0 as c a m ∨ (a = b ∧ (∃ e, x = .arm (.raw m) e none) ∧ SentTo N0 N c a m) := by
    rintro c a m ⟨as1, e, as2, N1, h1, h2, h3⟩
    rcases split_last h1 with ⟨rfl, h4, rfl⟩ | ⟨l3, rfl⟩
    · cases h4
      rw [hrun] at h2
      cases h2
      exact .inr ⟨rfl, ⟨e, rfl⟩, h3⟩
    · exact .inl ⟨as1, e, l3, N1, rfl, h2, h3⟩
  have arr' : ∀ c a m, Arrived N0 as c a m → Arrived N0 (as ++ [(b, x)]) c a m := by
    rintro c a m ⟨as1, e, as2, N1, rfl, h2, h3⟩
    exact ⟨as1, e, as2 ++ [(b, x)], N1, by simp, h2, h3⟩
  have other : ∀ c, c ≠ b → (fun k => dNet (g k) N0 (as ++ [(b, x)]) c) = fun k => dNet (g k) N0 as c := by
    intro c hc
    funext j m
    refine propext ⟨?_, ?_⟩
    · rintro ⟨h1, c', hc', h2⟩
      rcases arr c' c m h2 with h3 | ⟨h3, _⟩
      · exact ⟨h1, c', hc', h3⟩
      · exact absurd h3 hc
    · rintro ⟨h1, c', hc', h2⟩
      exact ⟨h1, c', hc', arr' c' c m h2⟩
  by_cases hb : (g 0).live b = true
  · obtain ⟨hu, hst⟩ := hs hb
    have key : ∃ eff P', n'.log = (N.nodes b).log ++ eff ∧ (∀ j, j < K → ∀ sp, P j = some sp → P' j = some sp) ∧
        (∀ j, j < K → P' j ≠ P j → b = (g j).leader ∧ ∃ sp, P' j = some sp ∧ IsProp (g j) sp ∧ .broadcast (.signedProposal sp) ∈ eff) ∧
        NodeAt g K P' (fun k => newQ (g k) (qNet (g k) N0 N) eff) b (fun k => dNet (g k) N0 (as ++ [(b, x)]) b) (doneSince N0 N b ++ eff) n' := by
      have hD' : ∀ j m, dNet (g j) N0 (as ++ [(b, x)]) b m → dNet (g j) N0 as b m ∨ m.getHeight? = some (g j).height ∧ ∃ e, x = .arm (.raw m) e none := by
        rintro j m ⟨h1, c, hc, h2⟩
        rcases arr c b m h2 with h3 | ⟨_, h3, _⟩
        · exact .inl ⟨h1, c, hc, h3⟩
        · exact .inr ⟨h1, h3⟩
      rcases h.nodes b hb with ⟨k, hat⟩ | hgone
      · have hk := hat.lt
        obtain ⟨hgs, hon, had⟩ := hst k hk hat.height
        have hsentD : ∀ m, dNet (g k) N0 as b m → m.getHeight? = some (g k).height ∧ ∃ c, (g 0).live c = true ∧ SentTo N0 N c b m := by
          rintro m ⟨h1, c, hc, h2⟩
          rw [hp.live k] at hc
          exact ⟨h1, c, hc, h.sent c b m hc h2⟩
        have hahead : ∀ j, k < j → j < K → ∀ m, dNet (g j) N0 as b m → (∃ sp, m = .signedProposal sp ∧ P j = some sp) ∨
            ∃ ty qc, m = .aggregatedVote qc ∧ GoodQc (g j) ty qc ∧ qNet (g j) N0 N ty ∧ P j ≠ none := by
          rintro j hj hjK m ⟨h1, c, hc, h2⟩
          have hc0 : (g 0).live c = true := by rw [← hp.live j]; exact hc
          have hs := (h.nodes c hc0).sends hjK
          rcases h.sent c b m hc0 h2 with hm | hm
          · rcases hs.bc m hm h1 with ⟨ty, qc, rfl, h3, h4⟩ | ⟨sp, rfl, h3⟩
            · exact .inr ⟨ty, qc, rfl, h3, ⟨c, qc, hc, h3, hm⟩, h4⟩
            · exact .inl ⟨sp, rfl, h3⟩
          · obtain ⟨h3, ty, sv, rfl, h4, h5, h6⟩ := hs.tr _ m hm h1
            exact absurd (hat.lead j hj hjK h3) h6
        obtain ⟨eff, Pk, k1, k2, k3, k4⟩ := hat.step (R' := fun k => dNet (g k) N0 (as ++ [(b, x)]) b) hp hE (fun sp hsp => (h.prop k hk sp hsp).1)
          (fun m hm => by
            obtain ⟨h1, c, hc, h2⟩ := hsentD m hm
            exact ⟨h1, h.round hp hk hc h2 h1⟩)
          (by
            rintro c i rfl m au hi hh
            obtain ⟨h1, h2⟩ := hgs m au hi hat.height hh
            refine ⟨fun hd => ?_, fun hv => ?_⟩
            · obtain ⟨_, c, hc, h3⟩ := hsentD m hd
              exact h1 ⟨c, by rw [hp.live k]; exact hc, h3⟩
            · rcases h2 hv with ⟨c, hc, h3⟩ | h3 | ⟨h3, h4⟩
              · exact h.msgOk hp hk hat hh ⟨c, by rw [← hp.live k]; exact hc, h3⟩
              · obtain ⟨n1, ⟨D1, v1⟩, v2, v3, _⟩ := hat.view
                obtain ⟨k2, k3⟩ := v1.core.vfy (m, au) (by rw [v3]; exact List.mem_of_getElem? hi)
                exact .inr (.inr (.inr ⟨k2, k3, .inr (.inl h3)⟩))
              · obtain ⟨n1, ⟨D1, v1⟩, v2, v3, _⟩ := hat.view
                obtain ⟨k2, k3⟩ := v1.core.vfy (m, au) (by rw [v3]; exact List.mem_of_getElem? hi)
                exact .bearable _ k2 k3 h3 h4)
          ⟨fun j m ⟨h1, c, hc, h2⟩ => ⟨h1, c, hc, arr' c b m h2⟩, hD', fun j m h1 => h1.1, fun j hj hjK m hm => by
            rcases hahead j hj hjK m hm with ⟨sp, h1, h2⟩ | ⟨ty, qc, h1, h2, _⟩
            · exact .inl ⟨sp, h1, (h.prop j hjK sp h2).1⟩
            · exact .inr ⟨ty, qc, h1, h2⟩, by
            rintro m e cut rfl j hj hjK hmh
            have hcut : cut = none := hu
            subst hcut
            rcases hon j hjK hmh (Plan.lt hp hj) with h1 | ⟨⟨c, hc, h1⟩, h2, h3⟩
            · exact .inl h1
            · exact .inr ⟨⟨hmh, c, hc, as, e, [], N, rfl, hrun, h1⟩, h2, fun h4 i hi hij => h3 h4 i hij (by
                rcases Nat.lt_or_eq_of_le hi with h5 | rfl
                · exact Nat.le_of_lt (Plan.lt hp h5)
                · exact Nat.le_refl _)⟩⟩
          hahead (calm_of hgs) had hn
        refine ⟨eff, Function.update P k Pk, k1, fun j _ sp hsp => ?_, fun j _ hne => ?_, k4⟩
        · by_cases hj : j = k
          · subst hj; rw [Function.update_self]; exact k2 sp hsp
          · rw [Function.update_of_ne hj]; exact hsp
        · by_cases hj : j = k
          · subst hj; rw [Function.update_self] at hne ⊢; exact k3 hne
          · rw [Function.update_of_ne hj] at hne; exact absurd rfl hne
      · obtain ⟨eff, k1, k2⟩ := hgone.step hu hn
        exact ⟨eff, P, k1, fun _ _ _ h => h, fun _ _ h => absurd rfl h, .inr k2⟩
    obtain ⟨eff, P', k1, k2, k3, k4⟩ := key
    have hlog : doneSince N0 N' b = doneSince N0 N b ++ eff := by
      unfold doneSince
      rw [hN b, if_pos rfl, k1]
      obtain ⟨t, ht⟩ := h.log b hb
      rw [← ht]; simp
    have hlog' : ∀ c, c ≠ b → doneSince N0 N' c = doneSince N0 N c := by
      intro c hc
      unfold doneSince
      rw [hN c, if_neg hc]
    have hmono : ∀ c, ∀ y ∈ doneSince N0 N c, y ∈ doneSince N0 N' c := by
      intro c y hy
      by_cases hc : c = b
      · subst hc; rw [hlog]; exact List.mem_append.2 (.inl hy)
      · rw [hlog' c hc]; exact hy
    have hq : ∀ j ty, qNet (g j) N0 N ty → qNet (g j) N0 N' ty := fun j ty ⟨c, qc, h1, h2, h3⟩ => ⟨c, qc, h1, h2, hmono c _ h3⟩
    have hsent : ∀ c a m, SentTo N0 N c a m → SentTo N0 N' c a m := fun c a m h => h.imp (hmono c _) (hmono c _)
    refine ⟨P', ?_, ?_, ?_, ?_⟩
    · intro c hc
      rw [hN c]
      split
      · rename_i hcb
        subst hcb
        rw [k1]
        exact (h.log c hc).trans (List.prefix_append _ _)
      · exact h.log c hc
    · intro c a m hc hm
      rcases arr c a m hm with h1 | ⟨_, _, h1⟩
      · exact hsent c a m (h.sent c a m hc h1)
      · exact hsent c a m h1
    · intro j hj sp hsp
      by_cases hPP : P' j = P j
      · rw [hPP] at hsp
        exact ⟨(h.prop j hj sp hsp).1, hmono _ _ (h.prop j hj sp hsp).2⟩
      · obtain ⟨h1, sp', h2, h3, h4⟩ := k3 j hj hPP
        rw [hsp] at h2
        cases h2
        refine ⟨h3, ?_⟩
        rw [← h1, hlog]; exact List.mem_append.2 (.inr h4)
    · intro c hc
      by_cases hcb : c = b
      · subst hcb
        rw [hN c, if_pos rfl, hlog]
        refine k4.mono (fun _ _ _ h => h) (fun j ty ht => ?_) (fun _ _ _ => rfl)
        rcases ht with ht | ⟨qc, h1, h2⟩
        · exact hq j ty ht
        · exact ⟨c, qc, by rw [hp.live j]; exact hc, h2, by rw [hlog]; exact List.mem_append.2 (.inr h1)⟩
      · rw [hN c, if_neg hcb, hlog' c hcb, other c hcb]
        refine (h.nodes c hc).mono k2 hq (fun j hj hcl => ?_)
        refine Decidable.by_contra fun hPP => ?_
        exact hcb (hcl.trans (k3 j hj hPP).1.symm)
  · have hne : ∀ c, (g 0).live c = true → c ≠ b := by rintro c hc rfl; exact hb hc
    have hlog' : ∀ c, (g 0).live c = true → doneSince N0 N' c = doneSince N0 N c := by
      intro c hc
      unfold doneSince
      rw [hN c, if_neg (hne c hc)]
    have hq : ∀ j ty, qNet (g j) N0 N ty → qNet (g j) N0 N' ty := fun j ty ⟨c, qc, h1, h2, h3⟩ =>
      ⟨c, qc, h1, h2, by rw [hlog' c (by rw [← hp.live j]; exact h1)]; exact h3⟩
    refine ⟨P, ?_, ?_, ?_, ?_⟩
    · intro c hc
      rw [hN c, if_neg (hne c hc)]; exact h.log c hc
    · intro c a m hc hm
      unfold SentTo
      rw [hlog' c hc]
      rcases arr c a m hm with h1 | ⟨_, _, h1⟩
      · exact h.sent c a m hc h1
      · exact h1
    · intro j hj sp hsp
      rw [hlog' _ (by rw [← hp.live j]; exact (hp.ok j (Nat.le_of_lt hj)).leads)]; exact h.prop j hj sp hsp
    · intro c hc
      rw [hN c, if_neg (hne c hc), hlog' c hc, other c (hne c hc)]
      exact (h.nodes c hc).mono (fun _ _ _ h => h) hq (fun _ _ _ => rfl)

theorem NetChain.run (hp : Plan g K) (hE : Encodes T) {N' : NetSys T} {as' : List (Address × NAct T)}
    (h : NetChain g K P N0 as N) (hrun : N0.run as = some N) (ha : AlongNet (fun N b x => (g 0).live b = true → ChainStep g K N0 N b x) N as')
    (hr : N.run as' = some N') : ∃ P', NetChain g K P' N0 (as ++ as') N' := by
  induction as' generalizing as N P with
  | nil => cases hr; rw [List.append_nil]; exact ⟨P, h⟩
  | cons y ys ih =>
    obtain ⟨b, x⟩ := y
    simp only [NetSys.run] at hr
    split at hr
    · cases hr
    · rename_i N1 hN
      obtain ⟨h1, h2⟩ := ha
      obtain ⟨P', h3⟩ := h.step hp hE hrun h1 hN
      have := ih h3 (by rw [run_append hrun]; simp [NetSys.run, hN]) (h2 N1 hN) hr
      rwa [List.append_assoc] at this

theorem NetChain.init (hp : Plan g K) (hK : 0 < K) (h : ∀ a, (g 0).live a = true → Begins g K a (N0.nodes a)) (hf : ∀ a, (g 0).live a = true → Filed (N0.nodes a).st) :
    NetChain g K (fun _ => none) N0 [] N0 := by
  have hd : ∀ a, doneSince N0 N0 a = [] := fun a => by unfold doneSince; simp
  have hno : ∀ c a m, ¬ Arrived N0 [] c a m := by
    rintro c a m ⟨as1, e, as2, N1, h1, -⟩
    simp at h1
  refine ⟨fun a _ => List.prefix_refl _, fun c a m _ hm => absurd hm (hno c a m), by simp, fun a ha => .inl ⟨0, ?_⟩⟩
  rw [hd]
  have hr := (h a ha).ready
  obtain ⟨i1, i2, i3, i4, i5⟩ := hr.idle
  refine ⟨hK, fun j hj => absurd hj (Nat.not_lt_zero _), ⟨fun m => dNet (g 0) N0 [] a m, fun m hm => hm, fun m hm => ⟨m, hm, .inl rfl⟩, .inl ⟨?_, last_of_none ?_⟩⟩, fun _ _ _ _ => rfl,
    ⟨by simp, by simp, fun j hj hjK => (h a ha).unseen j hj hjK, ?_, fun j hj hjK sp hsp => absurd hsp ((h a ha).unproposed j hj hjK sp), fun j hj hjK m ⟨_, c, _, hm⟩ => absurd hm (hno c a m), ?_, hf a ha, rfl⟩⟩
  · exact (ready_in (hp.ok 0 (Nat.zero_le _)) ha hr).less fun m ⟨_, c, _, hm⟩ => (hno c a m hm)
  · intro ev hev
    rcases hr.entry with ⟨h1, _⟩ | ⟨lr, lp, f, ni, nc, h1, _⟩
    · rw [h1] at hev; cases hev
    · rw [h1, List.mem_singleton] at hev
      subst hev
      exact id
  · rw [i2]; simp
  · rw [i3]; simp

omit [ContentCodec T] [DecidableEq T] in
theorem comm_blocks {g : GoodRound T} {L : List (Effect T)} (h : Comm g L) : (g.height, g.block) ∈ blocksOf L := by
  obtain ⟨c, r, h1, h2, _⟩ := h
  unfold blocksOf
  exact List.mem_filterMap.2 ⟨_, h1, by rw [← h2]⟩

omit [ContentCodec T] [DecidableEq T] in
theorem not_planned (hp : Plan g K) (b : T) : ((g k).height, b) ∉ planned g k := by
  unfold planned
  rw [List.mem_map]
  rintro ⟨j, hj, h⟩
  have := Plan.lt hp (List.mem_range.1 hj)
  simp only [Prod.mk.injEq] at h
  omega

/-- When all is delivered, everyone has committed. -/
theorem NetChain.done (hp : Plan g K) (h : NetChain g K P N0 as N) : ∀ k, k < K → (∀ j, j ≤ k → Delivered (g j) N0 N as) →
    ∀ a, (g 0).live a = true → Comm (g k) (doneSince N0 N a) := by
  intro k
  induction k using Nat.strongRecOn with
  | ind k ih =>
    intro hk hd a ha
    refine done_heard (hp.ok k (Nat.le_of_lt hk)) (h.prop k hk) (fun b hb => ?_) (hd k (Nat.le_refl _)) (by rw [hp.live k]; exact ha)
    · have hb0 : (g 0).live b = true := by rw [← hp.live k]; exact hb
      rcases h.nodes b hb0 with ⟨j, hat⟩ | hgone
      · rcases Nat.lt_trichotomy k j with h1 | rfl | h1
        · exact .inr (hat.out k h1)
        · obtain ⟨D, d1, d2, ⟨h2, _⟩ | ⟨k', _, old, new, st, h2⟩⟩ := hat.cur
          · refine .inl ⟨h2.less fun _ h => h.elim, fun m hm => ?_⟩
            obtain ⟨m', h3, h4⟩ := d2 m hm
            exact ⟨m', h4, h2.core.got m' h3⟩
          · have := ((hd k (Nat.le_refl _)).2 b hb hat.height).1
            rw [h2.trig] at this
            simp at this
        · have := comm_blocks (ih j h1 hat.lt (fun i hi => hd i (by omega)) b hb0)
          rw [hat.side.blocks] at this
          exact absurd this (not_planned hp _)
      · exact .inr (hgone.out k hk)

end Overlord.Chain
