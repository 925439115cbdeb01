import Verif.Model.FilteredTree

/-!
# What a view sends does not depend on what it sent before, and more recursion depth does no harm
-/

namespace Larch

/-- The same view, after more signals in the past. -/
def View.pre (o : List Sig) (v : View) : View := { v with out := o ++ v.out }

/-- Apply a function to the state of an outcome. -/
def Res.onState {σ : Type} (f : σ → σ) : Res σ → Res σ
  | .ok s => .ok (f s)
  | .err e s => .err e (f s)

/-- The operation neither reads nor changes the signals of the past. -/
def Blind (g : View → Res View) : Prop := ∀ o v, g (v.pre o) = (g v).onState (View.pre o)

theorem Blind.andThen {g k : View → Res View} (hg : Blind g) (hk : Blind k) : Blind (fun v => (g v).andThen k) := by
  intro o v
  show (g (v.pre o)).andThen k = ((g v).andThen k).onState _
  rw [hg]
  cases g v with
  | ok s => exact hk o s
  | err e s => rfl

theorem Blind.ok : Blind Res.ok := fun _ _ => rfl

theorem Blind.forEach {α : Type} {b : α → View → Res View} (h : ∀ x, Blind (b x)) (l : List α) : Blind (Res.forEach b l) := by
  induction l with
  | nil => exact Blind.ok
  | cons x l ih => exact (h x).andThen ih

/-- A step whose choice depends on the nodes only. -/
theorem Blind.ite {c : View → Prop} [∀ v, Decidable (c v)] {g k : View → Res View} (hc : ∀ o v, c (v.pre o) ↔ c v)
    (hg : Blind g) (hk : Blind k) : Blind (fun v => if c v then g v else k v) := by
  intro o v
  show (if c (v.pre o) then g (v.pre o) else k (v.pre o)) = Res.onState _ (if c v then g v else k v)
  by_cases h : c v
  · rw [if_pos ((hc o v).2 h), if_pos h]; exact hg o v
  · rw [if_neg (fun h' => h ((hc o v).1 h')), if_neg h]; exact hk o v

namespace View

theorem pathsFuel_pre (root : Id) (o : List Sig) (v : View) (f : Nat) (x : Id) :
    (v.pre o).pathsFuel root f x = v.pathsFuel root f x := by
  induction f generalizing x with
  | zero => rfl
  | succ f ih =>
    rw [pathsFuel, pathsFuel]
    show (if x = root ∨ v.has x = false then _ else Tree.collect _ (v.pars x)) = _
    refine congrArg (fun g => if x = root ∨ v.has x = false then Except.ok [[]] else Tree.collect g (v.pars x)) (funext fun p => ?_)
    rw [ih p]
    rfl

theorem paths_pre (root : Id) (o : List Sig) (v : View) (x : Id) : (v.pre o).paths root x = v.paths root x :=
  pathsFuel_pre root o v _ x

theorem downWalks_pre (o : List Sig) (v : View) (d : Nat) (x : Id) : (v.pre o).downWalks d x = v.downWalks d x := by
  induction d generalizing x with
  | zero => rfl
  | succ d ih =>
    show 1 + ((v.kids x).map ((v.pre o).downWalks d)).sum = 1 + ((v.kids x).map (v.downWalks d)).sum
    rw [funext ih]

theorem send_pre (o : List Sig) (v : View) (ev : SigEv) (x : Id) (ps : List (List Id)) :
    (v.pre o).send ev x ps = (v.send ev x ps).pre o := by
  show View.mk v.nodes ((o ++ v.out) ++ _) = View.mk v.nodes (o ++ (v.out ++ _))
  rw [List.append_assoc]

theorem addLoop_blind (starts : List (List Id)) (f : Nat) (q : List (Id × List Id)) :
    Blind (fun v => addLoop starts f v q) := by
  induction f generalizing q with
  | zero => intro o v; cases q <;> rfl
  | succ f ih =>
    intro o v
    cases q with
    | nil => rfl
    | cons i q =>
      obtain ⟨x, rel⟩ := i
      show addLoop starts (f + 1) (v.pre o) ((x, rel) :: q) = (addLoop starts (f + 1) v ((x, rel) :: q)).onState _
      rw [addLoop, addLoop, send_pre]
      show (match v.nodes.get? x with | none => _ | some n => _) = Res.onState _ (match v.nodes.get? x with | none => _ | some n => _)
      cases v.nodes.get? x with
      | none => rfl
      | some n => exact ih _ o _

theorem removeLoop_blind (starts : List (List Id)) (f : Nat) (q : List (Id × List Id × Bool)) :
    Blind (fun v => removeLoop starts f v q) := by
  induction f generalizing q with
  | zero => intro o v; cases q <;> rfl
  | succ f ih =>
    intro o v
    cases q with
    | nil => rfl
    | cons i q =>
      obtain ⟨x, rel, first⟩ := i
      show removeLoop starts (f + 1) (v.pre o) ((x, rel, first) :: q) = (removeLoop starts (f + 1) v ((x, rel, first) :: q)).onState _
      rw [removeLoop, removeLoop]
      cases first with
      | true =>
        show (match v.nodes.get? x with | none => _ | some n => _) = Res.onState _ (match v.nodes.get? x with | none => _ | some n => _)
        cases v.nodes.get? x with
        | none => rfl
        | some n => exact ih _ o _
      | false =>
        show removeLoop starts f ((v.pre o).send _ _ _) q = Res.onState _ (removeLoop starts f (v.send _ _ _) q)
        rw [send_pre]
        exact ih _ o _

theorem sendAdd_blind (root x p : Id) : Blind (fun v => v.sendAdd root x p) := by
  intro o v
  show (v.pre o).sendAdd root x p = (v.sendAdd root x p).onState _
  unfold sendAdd
  rw [paths_pre]
  cases v.paths root p with
  | error e => rfl
  | ok starts =>
    show addLoop starts ((v.pre o).walksBelow x) (v.pre o) _ = _
    have : (v.pre o).walksBelow x = v.walksBelow x := downWalks_pre o v _ x
    rw [this]
    exact addLoop_blind _ _ _ o v

theorem sendRemove_blind (root x p : Id) : Blind (fun v => v.sendRemove root x p) := by
  intro o v
  show (v.pre o).sendRemove root x p = (v.sendRemove root x p).onState _
  unfold sendRemove
  rw [paths_pre]
  cases v.paths root p with
  | error e => rfl
  | ok starts =>
    show removeLoop starts (2 * (v.pre o).walksBelow x) (v.pre o) _ = _
    have : (v.pre o).walksBelow x = v.walksBelow x := downWalks_pre o v _ x
    rw [this]
    exact removeLoop_blind _ _ _ o v

theorem dropKid_blind (p x : Id) : Blind (fun v => v.dropKid p x) := by
  intro o v
  show (v.pre o).dropKid p x = (v.dropKid p x).onState _
  unfold dropKid
  show (match v.nodes.get? p with | none => _ | some n => _) = Res.onState _ (match v.nodes.get? p with | none => _ | some n => _)
  cases v.nodes.get? p with
  | none => rfl
  | some n => dsimp only; split <;> rfl

theorem dropPar_blind (c x : Id) : Blind (fun v => v.dropPar c x) := by
  intro o v
  show (v.pre o).dropPar c x = (v.dropPar c x).onState _
  unfold dropPar
  show (match v.nodes.get? c with | none => _ | some n => _) = Res.onState _ (match v.nodes.get? c with | none => _ | some n => _)
  cases v.nodes.get? c with
  | none => rfl
  | some n => dsimp only; split <;> rfl

end View

namespace VEnv

variable (E : VEnv)

theorem leave_blind {upd : Id → View → Res View} (h : ∀ x, Blind (upd x)) (g : Bool) (x p : Id) :
    Blind (E.leave upd g x p) := by
  unfold leave
  refine (View.sendRemove_blind _ _ _).andThen ((View.dropKid_blind _ _).andThen ?_)
  cases g
  · exact Blind.ok
  · exact h p

theorem join_blind {upd : Id → View → Res View} (h : ∀ x, Blind (upd x)) (g : Bool) (x p : Id) :
    Blind (E.join upd g x p) := by
  unfold join
  refine Blind.ite (c := fun v => v.has p = false) (fun _ _ => Iff.rfl) (fun _ _ => rfl) (Blind.andThen ?_ ?_)
  · intro o v
    exact View.sendAdd_blind _ _ _ o (v.upd p _)
  · cases g
    · exact Blind.ok
    · exact h p

theorem abandon_blind {upd : Id → View → Res View} (h : ∀ x, Blind (upd x)) (x c : Id) : Blind (E.abandon upd x c) :=
  (View.sendRemove_blind _ _ _).andThen ((View.dropPar_blind _ _).andThen (h c))

theorem settle_blind {up : Id → View → Res View} (h : ∀ x, Blind (up x)) (x : Id) (dir : Dir) : Blind (E.settle up x dir) := by
  unfold settle
  intro o v
  dsimp only
  have e0 : (v.pre o).has x = v.has x := rfl
  rw [e0]
  have e1 : (if (!v.has x) = true then ({ v.pre o with nodes := (v.pre o).nodes.set x {} } : View) else v.pre o) =
      (if (!v.has x) = true then ({ v with nodes := v.nodes.set x {} } : View) else v).pre o := by
    split <;> rfl
  rw [e1]
  generalize (if (!v.has x) = true then ({ v with nodes := v.nodes.set x {} } : View) else v) = v1
  refine Blind.andThen (g := fun v1 => if (!v.has x) = true then Res.forEach up _ v1 else .ok v1) ?_ ?_ o v1
  · split
    · exact Blind.forEach h _
    · exact Blind.ok
  · intro o v2
    show (match v2.nodes.get? x with | none => _ | some n => _) = Res.onState _ (match v2.nodes.get? x with | none => _ | some n => _)
    cases v2.nodes.get? x with
    | none => rfl
    | some n =>
      refine Blind.andThen (g := fun v3 => Res.forEach _ _ v3) (Blind.forEach (E.leave_blind h _ x) _) ?_ o (v2.upd x _)
      refine Blind.andThen (Blind.forEach (E.join_blind h _ x) _) (Blind.andThen ?_ ?_)
      · cases (if dir = Dir.down ∧ E.root ∈ E.diff (E.newPars (View.pre o v2) x) n.parents then Dir.both else dir).goesUp
        · exact Blind.ok
        · exact Blind.forEach h _
      · split
        · exact Blind.ok
        · intro o v6
          dsimp only
          rw [View.paths_pre]
          cases v6.paths E.root x with
          | error e => rfl
          | ok ps =>
            show Res.ok _ = Res.ok _
            rw [View.send_pre]

theorem vanish_blind {up down : Id → View → Res View} (h : ∀ x, Blind (up x)) (h' : ∀ x, Blind (down x)) (x : Id) :
    Blind (E.vanish up down x) := by
  intro o v
  unfold vanish
  rw [View.paths_pre]
  cases v.paths E.root x with
  | error e => rfl
  | ok ps =>
    refine Blind.andThen (g := fun v => Res.forEach _ _ v) (Blind.forEach (E.abandon_blind h' x) _) ?_ o v
    intro o v1
    show (match v1.nodes.get? x with | none => _ | some n => _) = Res.onState _ (match v1.nodes.get? x with | none => _ | some n => _)
    cases v1.nodes.get? x with
    | none => rfl
    | some n =>
      dsimp only
      have e : ({ v1.pre o with nodes := (v1.pre o).nodes.del x } : View).send .deleted x ps =
          (({ v1 with nodes := v1.nodes.del x } : View).send .deleted x ps).pre o :=
        View.send_pre o { v1 with nodes := v1.nodes.del x } _ _ _
      rw [e]
      refine Blind.andThen (g := fun v => Res.forEach _ _ v)
        (Blind.forEach (fun p => (View.dropKid_blind p x).andThen (h p)) _) ?_ o _
      split
      · exact Blind.forEach (fun p => Blind.ite (c := fun v => v.has p = false) (fun _ _ => Iff.rfl) (h p) Blind.ok) _
      · exact Blind.ok

theorem update_blind (f : Nat) (x : Id) (dir : Dir) : Blind (E.update f x dir) := by
  induction f generalizing x dir with
  | zero => exact fun _ _ => rfl
  | succ f ih =>
    rw [show E.update (f + 1) x dir = fun v => E.update (f + 1) x dir v from rfl]
    simp only [update]
    refine Blind.ite (c := fun v => x = E.root) (fun _ _ => Iff.rfl) Blind.ok ?_
    refine Blind.ite (c := fun v => v.has x = false ∧ E.disp x = false) (fun _ _ => Iff.rfl) ?_ ?_
    · split
      · exact Blind.forEach (fun p => ih p .up) _
      · exact Blind.ok
    · refine Blind.ite (c := fun v => E.disp x = true) (fun _ _ => Iff.rfl) ?_ ?_
      · refine (E.settle_blind (fun p => ih p .up) x dir).andThen ?_
        refine Blind.ite (c := fun v => v.has x = false) (fun _ _ => Iff.rfl) (fun _ _ => rfl) ?_
        split
        · exact Blind.forEach (fun c => Blind.ite (c := fun v => c ∉ v.kids x) (fun _ _ => Iff.rfl) (ih c .down) Blind.ok) _
        · exact Blind.ok
      · exact E.vanish_blind (fun p => ih p .up) (fun p => ih p .down) x

theorem fillLoop_blind (depth f : Nat) (q : List Id) : Blind (fun v => E.fillLoop depth f v q) := by
  induction f generalizing q with
  | zero => intro o v; cases q <;> rfl
  | succ f ih =>
    cases q with
    | nil => exact fun _ _ => rfl
    | cons x q =>
      refine (E.update_blind depth x .both).andThen ?_
      split
      · exact fun _ _ => rfl
      · exact ih _

theorem refilter_blind (depth rounds : Nat) : Blind (E.refilter depth rounds) := by
  intro o v
  refine Blind.andThen (g := fun v => Res.forEach _ _ v) (Blind.forEach (fun x => View.sendRemove_blind _ x _) _) ?_ o v
  intro o v
  exact E.fillLoop_blind depth rounds E.top o { v with nodes := View.rootOnly E.root }

end VEnv

/-! ### Recursion depth -/

/-- Where the first outcome is a success, the second is the same. -/
def Upto (r r' : Res View) : Prop := ∀ v, r = .ok v → r' = .ok v

theorem Upto.refl (r : Res View) : Upto r r := fun _ h => h

theorem Upto.andThen {r r' : Res View} {k k' : View → Res View} (h : Upto r r') (hk : ∀ v, Upto (k v) (k' v)) :
    Upto (r.andThen k) (r'.andThen k') := by
  intro v hv
  cases r with
  | err e s => cases hv
  | ok s => rw [h s rfl]; exact hk s v hv

theorem Upto.forEach {α : Type} {b b' : α → View → Res View} (h : ∀ x v, Upto (b x v) (b' x v)) (l : List α) (v : View) :
    Upto (Res.forEach b l v) (Res.forEach b' l v) := by
  induction l generalizing v with
  | nil => exact Upto.refl _
  | cons x l ih => exact (h x v).andThen ih

theorem Upto.ite {c : Prop} [Decidable c] {a a' b b' : Res View} (ha : Upto a a') (hb : Upto b b') :
    Upto (if c then a else b) (if c then a' else b') := by
  split
  · exact ha
  · exact hb

namespace VEnv

variable (E : VEnv)

theorem settle_upto {up up' : Id → View → Res View} (h : ∀ x v, Upto (up x v) (up' x v)) (x : Id) (dir : Dir) (v : View) :
    Upto (E.settle up x dir v) (E.settle up' x dir v) := by
  unfold settle
  dsimp only
  refine Upto.andThen (Upto.ite (Upto.forEach h _ _) (Upto.refl _)) fun v2 => ?_
  cases v2.nodes.get? x with
  | none => exact Upto.refl _
  | some n =>
    dsimp only
    refine Upto.andThen (Upto.forEach (fun p v => ?_) _ _) fun v4 => ?_
    · unfold leave
      exact Upto.andThen (Upto.refl _) fun v => Upto.andThen (Upto.refl _) fun v => Upto.ite (h _ _) (Upto.refl _)
    · refine Upto.andThen (Upto.forEach (fun p v => ?_) _ _) fun v5 => ?_
      · unfold join
        exact Upto.ite (Upto.refl _) (Upto.andThen (Upto.refl _) fun v => Upto.ite (h _ _) (Upto.refl _))
      · exact Upto.andThen (Upto.ite (Upto.forEach h _ _) (Upto.refl _)) fun v => Upto.refl _

theorem vanish_upto {up up' down down' : Id → View → Res View} (h : ∀ x v, Upto (up x v) (up' x v))
    (hd : ∀ x v, Upto (down x v) (down' x v)) (x : Id) (v : View) : Upto (E.vanish up down x v) (E.vanish up' down' x v) := by
  unfold vanish
  cases v.paths E.root x with
  | error e => exact Upto.refl _
  | ok ps =>
    dsimp only
    refine Upto.andThen (Upto.forEach (fun c v => ?_) _ _) fun v1 => ?_
    · exact Upto.andThen (Upto.refl _) fun v => Upto.andThen (Upto.refl _) fun v => hd _ _
    · cases v1.nodes.get? x with
      | none => exact Upto.refl _
      | some n =>
        dsimp only
        refine Upto.andThen (Upto.forEach (fun p v => Upto.andThen (Upto.refl _) fun v => h _ _) _ _) fun v3 => ?_
        exact Upto.ite (Upto.forEach (fun p v => Upto.ite (h _ _) (Upto.refl _)) _ _) (Upto.refl _)

theorem update_upto {f g : Nat} (hfg : f ≤ g) (x : Id) (dir : Dir) (v : View) :
    Upto (E.update f x dir v) (E.update g x dir v) := by
  induction f generalizing g x dir v with
  | zero => intro w hw; cases hw
  | succ f ih =>
    obtain ⟨g, rfl⟩ : ∃ k, g = k + 1 := ⟨g - 1, by omega⟩
    have ih := fun x dir v => ih (g := g) (by omega) x dir v
    unfold update
    refine Upto.ite (Upto.refl _) (Upto.ite (Upto.ite (Upto.forEach (fun p v => ih _ _ _) _ _) (Upto.refl _))
      (Upto.ite ?_ (E.vanish_upto (fun p v => ih _ _ _) (fun p v => ih _ _ _) x v)))
    refine Upto.andThen (E.settle_upto (fun p v => ih _ _ _) x dir v) fun v => Upto.ite (Upto.refl _) (Upto.ite ?_ (Upto.refl _))
    exact Upto.forEach (fun c v => Upto.ite (ih _ _ _) (Upto.refl _)) _ _

theorem fillLoop_upto {d d' : Nat} (hd : d ≤ d') (f : Nat) (v : View) (q : List Id) :
    Upto (E.fillLoop d f v q) (E.fillLoop d' f v q) := by
  induction f generalizing v q with
  | zero => cases q <;> exact Upto.refl _
  | succ f ih =>
    cases q with
    | nil => exact Upto.refl _
    | cons x q =>
      unfold fillLoop
      exact Upto.andThen (E.update_upto hd _ _ _) fun v => Upto.ite (Upto.refl _) (ih _ _)

end VEnv
end Larch
