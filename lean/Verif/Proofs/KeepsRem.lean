import Verif.Proofs.Remove

/-!
# Properties of tree and log that survive removals

`Q X s` is to mean that all is well in `s` apart from the nodes in `X`, which are being removed. All nodes to be removed are in `S`.
-/

namespace Larch

open Graph

/-- `Q` survives the steps of a removal on trees that are consistent up to the root list. -/
structure KeepsRem (S : Id → Prop) (Q : (Id → Prop) → St → Prop) : Prop where
  same : ∀ {X : Id → Prop} {s s' : St}, Q X s → s'.t.nodes = s.t.nodes → s'.log = s.log → Q X s'
  weaken : ∀ {X Y : Id → Prop} {s : St}, Q X s → (∀ y, X y → Y y) → Q Y s
  cut : ∀ {X : Id → Prop} {s : St} {p c n : Id} {t' : Tree}, Q X s → WF s.t → s.t.destroy p c = some t' → WF t' → X p ∨ X c →
    S p ∨ n = p → s.t.has n = true → Q X ((⟨t', s.log⟩ : St).emit .modified n)
  del : ∀ {X Y : Id → Prop} {s : St} {x : Id}, Q Y s → WF s.t → s.t.has x = true → (∀ c, x ∉ s.t.rawParents c) →
    (∀ p ∈ s.t.rawParents x, S p) → (∀ y, Y y → y = x ∨ X y) → Q X ((⟨dropNode s.t x, s.log⟩ : St).emit .deleted x)

variable {S : Id → Prop} {Q : (Id → Prop) → St → Prop}

theorem removeParentsLoop_rem (K : KeepsRem S Q) {X : Id → Prop} (f i : Nat) (s s' : St) (x : Id) (h : WF s.t) (hX : X x) (hq : Q X s)
    (e : removeParentsLoop f i s x = .ok s') : Q X s' := by
  induction f generalizing i s with
  | zero => cases e; exact hq
  | succ f ih =>
    unfold removeParentsLoop at e
    cases hp : (s.t.rawParents x)[i]? with
    | none => rw [hp] at e; cases e; exact hq
    | some p =>
      rw [hp] at e
      have hm : p ∈ s.t.rawParents x := List.mem_of_getElem? hp
      obtain ⟨t', ht', -⟩ := Tree.destroy_spec (h.has_parent hm) (Tree.has_of_mem_rawParents hm)
      dsimp only at e
      rw [ht'] at e
      have hw := h.destroy ht'
      exact ih (i + 1) _ hw (K.cut hq h ht' hw (Or.inr hX) (Or.inr rfl) (h.has_parent hm)) e

theorem orphanLoop_rem (K : KeepsRem S Q) {X : Id → Prop} (x : Id) (hX : X x) (hS : S x) : ∀ (l : List Id) (s s' : St), WF s.t → s.t.has x = true →
    (∀ c ∈ l, s.t.has c = true) → Q X s →
    Res.forEach (fun c s => if false = true then removeNode 0 s c true else orphanChild x c s) l s = .ok s' → Q X s' := by
  intro l
  induction l with
  | nil => intro s s' _ _ _ h he; cases he; exact h
  | cons c l ih =>
    intro s s' h hx hl hq he
    obtain ⟨t', ht', e⟩ := Tree.destroy_spec hx (hl c (by simp))
    have hw := h.destroy ht'
    have q1 := K.cut hq h ht' hw (Or.inl hX) (Or.inl hS) (hl c (by simp))
    have step : ∀ s1 : St, s1.t.nodes = t'.nodes → WF s1.t → Q X s1 →
        Res.forEach (fun c s => if false = true then removeNode 0 s c true else orphanChild x c s) l s1 = .ok s' → Q X s' := by
      intro s1 hn hw1 q he1
      have hh : ∀ y, s1.t.has y = s.t.has y := by
        intro y; rw [← e.has y]; unfold Tree.has; rw [hn]
      refine ih s1 s' hw1 ?_ ?_ q he1
      · rw [hh]; exact hx
      · intro d hd; rw [hh]; exact hl d (by simp [hd])
    rw [Res.forEach, if_neg (by simp)] at he
    generalize hR : Res.forEach (fun c s => if false = true then removeNode 0 s c true else orphanChild x c s) l = R at he step
    unfold orphanChild at he
    rw [ht'] at he
    dsimp only at he
    split at he
    · exact step (((⟨t', s.log⟩ : St).emit .modified c).mapTree fun t => t.updRoot fun l => l ++ [c]) rfl
        (WF.updRoot hw fun l => l ++ [c]) (K.same q1 rfl rfl) he
    · exact step _ rfl hw q1 he

/-- After the loop over the parents the node has parents in `S` only. -/
theorem parents_left {s s' : St} {x : Id} (h : WF s.t) (hx : s.t.has x = true)
    (e : removeParentsLoop (s.t.rawParents x).length 0 s x = .ok s') (ef : ParentsLoopEffect s.t s'.t x)
    (hP : (∀ p ∈ s.t.rawParents x, S p) ∨ (s.t.rawParents x).length ≤ 1) (p : Id) (hp : p ∈ s'.t.rawParents x) : S p := by
  rcases hP with hP | hP
  · exact hP p (ef.parentsX.subset hp)
  · have := ef.wf.up p x hp
    rw [removeParentsLoop_exact h hx e, everySecond_short hP] at this; cases this

theorem removeNode_remOrphan (K : KeepsRem S Q) {s : St} (h : Good s.t) {x : Id} (hx : s.t.has x = true)
    (hch : ∀ c ∈ s.t.rawChildren x, s.t.has c = true) (hS : S x)
    (hP : (∀ p ∈ s.t.rawParents x, S p) ∨ (s.t.rawParents x).length ≤ 1) (f : Nat) (hq : Q (fun _ => False) s) :
    Q (fun _ => False) (removeNode (f + 1) s x false).state := by
  have hxn : x ≠ .none := by rintro rfl; have := (h.wf.ids _ hx).1; cases this
  unfold removeNode
  rw [if_neg (by simp [hx, hxn])]
  dsimp only
  generalize hs1 : (s.mapTree fun t => { t with pending := dropPendingOf t.pending x }) = s1
  have ht1 : s1.t = { s.t with pending := dropPendingOf s.t.pending x } := by rw [← hs1]; rfl
  have hw1 : WF s1.t := by rw [ht1]; exact h.wf.pending _
  have q1 : Q (fun y => y = x) s1 := K.weaken (K.same hq (by rw [ht1]) (by rw [← hs1]; rfl)) fun _ h => h.elim
  obtain ⟨s2, e2, ef2⟩ := removeParentsLoop_effect (s1.t.rawParents x).length 0 s1 x hw1
  have q2 := removeParentsLoop_rem K (X := fun y => y = x) _ _ _ _ x hw1 rfl q1 e2
  rw [e2, Res.andThen_ok]
  have has2 : ∀ y, s2.t.has y = s.t.has y := by intro y; rw [ef2.same.has, ht1]; rfl
  have selfp : x ∉ s.t.rawParents x := fun hm => h.wf.acyclic x (Reach.single hm)
  have selfc : x ∉ s.t.rawChildren x := fun hm => selfp (h.wf.down x x hm hx)
  have ch2 : s2.t.rawChildren x = s.t.rawChildren x := by
    rw [ef2.others x (by rw [ht1]; exact selfp), ht1]; rfl
  have par2 : ∀ y, y ≠ x → s2.t.rawParents y = s.t.rawParents y := by
    intro y hy; rw [ef2.parents y hy, ht1]; rfl
  have hcx : ∀ c ∈ s.t.rawChildren x, c ≠ x := by rintro c hc rfl; exact selfc hc
  obtain ⟨s3, e3, ef3⟩ := orphanLoop x (s2.t.rawChildren x) s2 ef2.wf (by rw [has2]; exact hx)
    (ef2.wf.ndC x) (by
      intro c hc
      rw [ch2] at hc
      rw [par2 c (hcx c hc)]
      exact h.wf.down x c hc (hch c hc))
  have q3 := orphanLoop_rem K (X := fun y => y = x) x rfl hS _ s2 s3 ef2.wf (by rw [has2]; exact hx)
    (fun c hc => by rw [has2]; exact hch c (by rw [← ch2]; exact hc)) q2 e3
  rw [orphanLoop_body, e3, Res.andThen_ok]
  have has3 : ∀ y, s3.t.has y = s.t.has y := by intro y; rw [ef3.same.has, has2]
  rw [if_pos (by rw [has3]; exact hx)]
  have nox : ∀ c, x ∉ s3.t.rawParents c := by
    intro c hm
    rw [ef3.parents] at hm
    split at hm
    · exact (ef2.wf.ndP c).not_mem_erase hm
    · rename_i hc
      exact hc (ef2.wf.up x c hm)
  exact K.del q3 ef3.wf (by rw [has3]; exact hx) nox (by
    intro p hp
    rw [ef3.parents, if_neg (fun hm => selfc (by rw [← ch2]; exact hm))] at hp
    exact parents_left hw1 (by rw [ht1]; exact hx) e2 ef2 (by rw [ht1]; exact hP) p hp) fun y hy => Or.inl hy

/-- `S` contains the children of its nodes, and the parents of those of its nodes that have several. -/
structure Within (S : Id → Prop) (t : Tree) : Prop where
  down : ∀ y c, S y → c ∈ t.rawChildren y → S c
  up : ∀ y, S y → (∀ p ∈ t.rawParents y, S p) ∨ (t.rawParents y).length ≤ 1

theorem Within.removed {t t' : Tree} (h : Within S t) (e : RemEffect t t') : Within S t' := by
  refine ⟨fun y c hy hc => h.down y c hy ((e.children y).subset hc), fun y hy => ?_⟩
  by_cases hh : t'.has y = true
  · rw [e.parents y hh]; exact h.up y hy
  · exact .inl fun p hp => absurd (Tree.has_of_mem_rawParents hp) hh

theorem removeNode_remRec (K : KeepsRem S Q) (ht : Id → Nat) (f : Nat) : ∀ (X : Id → Prop) (s : St) (x : Id), WF s.t →
    (∀ y c, c ∈ s.t.rawChildren y → ht c < ht y) → ht x < f → S x → Within S s.t → Q X s → Q X (removeNode f s x true).state := by
  induction f with
  | zero => intro _ s x _ _ h; omega
  | succ f ih =>
    intro X s x h hh hf hS hI hq
    by_cases hx : s.t.has x = true
    · have hxn : x ≠ .none := by rintro rfl; have := (h.ids _ hx).1; cases this
      unfold removeNode
      rw [if_neg (by simp [hx, hxn])]
      dsimp only
      generalize hs1 : (s.mapTree fun t => { t with pending := dropPendingOf t.pending x }) = s1
      have ht1 : s1.t = { s.t with pending := dropPendingOf s.t.pending x } := by rw [← hs1]; rfl
      have hw1 : WF s1.t := by rw [ht1]; exact h.pending _
      have q1 : Q (fun y => y = x ∨ X y) s1 := K.weaken (K.same hq (by rw [ht1]) (by rw [← hs1]; rfl)) fun _ h => Or.inr h
      obtain ⟨s2, e2, ef2⟩ := removeParentsLoop_effect (s1.t.rawParents x).length 0 s1 x hw1
      have q2 := removeParentsLoop_rem K _ _ _ _ x hw1 (Or.inl rfl) q1 e2
      rw [e2, Res.andThen_ok]
      have sub2 : ∀ y c, c ∈ s2.t.rawChildren y → c ∈ s.t.rawChildren y := by
        intro y c hc
        have := (ef2.childrenSub y).subset hc
        rw [ht1] at this; exact this
      have hI2 : Within S s2.t := by
        refine ⟨fun y c hy hc => hI.down y c hy (sub2 y c hc), fun y hy => ?_⟩
        have hsub : (s2.t.rawParents y).Sublist (s.t.rawParents y) := by
          by_cases e : y = x
          · subst e; have := ef2.parentsX; rw [ht1] at this; exact this
          · rw [ef2.parents y e, ht1]; exact List.Sublist.refl _
        exact (hI.up y hy).imp (fun hp p hm => hp p (hsub.subset hm)) fun h1 => le_trans hsub.length_le h1
      have loop : ∀ (l : List Id) (s2 : St), WF s2.t → (∀ y c, c ∈ s2.t.rawChildren y → ht c < ht y) →
          (∀ c ∈ l, ht c < f) → (∀ c ∈ l, S c) → Within S s2.t → Q (fun y => y = x ∨ X y) s2 →
          ∃ s3, Res.forEach (fun c s => if true = true then removeNode f s c true else orphanChild x c s) l s2 = .ok s3 ∧
            RemEffect s2.t s3.t ∧ (∀ c ∈ l, s3.t.has c = false) ∧
            (∀ y, s2.t.has y = true → s3.t.has y = false → ∃ c ∈ l, ReachEq s2.t.rawChildren c y) ∧
            Q (fun y => y = x ∨ X y) s3 := by
        intro l
        induction l with
        | nil =>
          intro s2 hw _ _ _ _ q
          refine ⟨s2, rfl, RemEffect.refl hw, by simp, ?_, q⟩
          intro y h1 h2; rw [h1] at h2; cases h2
        | cons c l ihl =>
          intro s2 hw hd hl hlS hI q
          obtain ⟨s3, e3, ef3, g3, r3, -⟩ := removeNode_rec ht f s2 c hw hd (hl c (by simp))
          have q3 := ih _ s2 c hw hd (hl c (by simp)) (hlS c (by simp)) hI q
          rw [e3] at q3
          obtain ⟨s4, e4, ef4, g4, r4, q4⟩ := ihl s3 ef3.wf
            (fun y d hd' => hd y d ((ef3.children y).subset hd')) (fun d hd' => hl d (by simp [hd'])) (fun d hd' => hlS d (by simp [hd'])) (hI.removed ef3) q3
          refine ⟨s4, ?_, ef3.trans ef4, ?_, ?_, q4⟩
          · unfold Res.forEach; rw [if_pos rfl, e3]; exact e4
          · intro d hd'
            rcases List.mem_cons.1 hd' with rfl | hd'
            · by_contra hc; have := ef4.hasSub d (by simpa using hc); rw [g3] at this; cases this
            · exact g4 d hd'
          · intro y h1 h2
            by_cases h3 : s3.t.has y = true
            · obtain ⟨d, hd', hr⟩ := r4 y h3 h2
              exact ⟨d, by simp [hd'], ef3.reach hr⟩
            · exact ⟨c, by simp, r3 y h1 (by simpa using h3)⟩
      obtain ⟨s3, e3, ef3, g3, r3, q3⟩ := loop (s2.t.rawChildren x) s2 ef2.wf
        (fun y c hc => hh y c (sub2 y c hc))
        (fun c hc => by have := hh x c (sub2 x c hc); omega)
        (fun c hc => hI.down x c hS (sub2 x c hc)) hI2 q2
      rw [e3, Res.andThen_ok]
      have hx3 : s3.t.has x = true := by
        by_contra hc
        obtain ⟨c, hc1, hr⟩ := r3 x (by rw [ef2.same.has, ht1]; exact hx) (by simpa using hc)
        have hac : ∀ z w, ReachEq s2.t.rawChildren z w → ht w ≤ ht z := by
          rintro z w (rfl | hr)
          · exact le_refl _
          · induction hr with
            | single hm => exact le_of_lt (hh _ _ (sub2 _ _ hm))
            | tail _ hm ih => exact le_trans (le_of_lt (hh _ _ (sub2 _ _ hm))) ih
        have h1 := hac c x hr
        have h2 := hh x c (sub2 x c hc1)
        omega
      rw [if_pos hx3]
      have nox : ∀ c, x ∉ s3.t.rawParents c := by
        intro c hm
        have hc := Tree.has_of_mem_rawParents hm
        have := (ef3.children x).subset (ef3.wf.up x c hm)
        rw [g3 c this] at hc; cases hc
      exact K.del q3 ef3.wf hx3 nox (by
        intro p hp
        rw [ef3.parents x hx3] at hp
        exact parents_left hw1 (by rw [ht1]; exact hx) e2 ef2 (by rw [ht1]; exact hI.up x hS) p hp) fun _ h => h
    · unfold removeNode; rw [if_pos (by simp [hx])]; exact hq

theorem removeNode_remRecursive (K : KeepsRem S Q) {s : St} (h : WF s.t) (x : Id) (hS : S x) (hI : Within S s.t)
    (hq : Q (fun _ => False) s) :
    Q (fun _ => False) (removeNode (removeFuel s.t) s x true).state := by
  obtain ⟨ht, hle, hlt⟩ := exists_height s.t.rawChildren s.t.nodes.keys s.t.rawChildren_keys h.acyclicC
  exact removeNode_remRec K ht (removeFuel s.t) (fun _ => False) s x h hlt (by
    have := hle x; rw [Dict.keys_length] at this; unfold removeFuel; omega) hS hI hq

end Larch
