import Verif.SemCek

/-! # The interpreter and the stepping semantics agree -/

namespace Verif.Sem
open Verif.Bc
variable {K : Type}

/-! ## More fuel changes nothing -/

theorem andThen_mono {A B : Type} {a a' : Option (Except Err A)} {f f' : A → Option (Except Err B)} {r}
    (ha : ∀ t, a = some t → a' = some t) (hf : ∀ v r, f v = some r → f' v = some r) (h : andThen a f = some r) :
    andThen a' f' = some r := by
  rcases a with _ | (x | v)
  · simp [andThen] at h
  · rw [ha _ rfl]; exact h
  · rw [ha _ rfl]; exact hf v r h

theorem andThen_mono' {A B : Type} {a : Option (Except Err A)} {f f' : A → Option (Except Err B)} {r}
    (hf : ∀ v r, f v = some r → f' v = some r) (h : andThen a f = some r) :
    andThen a f' = some r := andThen_mono (fun _ h => h) hf h

theorem fuel_succ (P : World K) (m : Nat) :
    (∀ v r, eval P m v = some r → eval P (m + 1) v = some r) ∧
    (∀ v r, force P m v = some r → force P (m + 1) v = some r) ∧
    (∀ v vs r, apply P m v vs = some r → apply P (m + 1) v vs = some r) ∧
    (∀ v r, operand P m v = some r → operand P (m + 1) v = some r) ∧
    (∀ vs r, forceAll P m vs = some r → forceAll P (m + 1) vs = some r) := by
  induction m with
  | zero => refine ⟨?_, ?_, ?_, ?_, ?_⟩ <;> (intros; simp_all [eval, force, apply, operand, forceAll])
  | succ m ih =>
    obtain ⟨he, hf, ha, ho, hl⟩ := ih
    refine ⟨?_, ?_, ?_, ?_, ?_⟩
    · intro v r h
      rcases v with k | ⟨_ | a, c, e⟩
      · simpa [eval] using h
      · cases c <;> rw [eval] at h ⊢ <;> try exact h
        case atom => exact andThen_mono' he h
        case case => exact andThen_mono (hf _) (fun _ _ h => andThen_mono' he h) h
        case app => exact andThen_mono' (fun _ _ h => ha _ _ _ h) h
        case dapp => exact andThen_mono' (fun _ _ h => ha _ _ _ h) h
        case «bif» =>
          exact andThen_mono' (fun _ _ h => andThen_mono (hl _) (fun _ _ h => andThen_mono' he h) h) h
        case let_ => exact he _ _ h
        case letrec => exact he _ _ h
        case ann => exact he _ _ h
        case demeta =>
          refine andThen_mono (he _) (fun w r h => ?_) h
          split at h
          · exact andThen_mono' (fun _ _ h => he _ _ h) h
          · exact he _ _ h
        case seq => exact andThen_mono (hf _) (fun _ _ h => he _ _ h) h
        case fused =>
          exact andThen_mono (ho _) (fun _ _ h => andThen_mono (ho _) (fun _ _ h => andThen_mono' he h) h) h
      · simpa [eval] using h
    · intro v r h
      rw [force] at h ⊢
      refine andThen_mono (he _) (fun w r h => ?_) h
      split at h
      · exact andThen_mono' hf h
      · exact h
    · intro v vs r h
      rw [apply] at h ⊢
      refine andThen_mono (hf _) (fun w r h => andThen_mono' (fun u r h => ?_) h) h
      obtain ⟨u, _ | rest⟩ := u
      · exact he _ _ h
      · exact ha _ _ _ h
    · intro v r h
      rw [operand] at h ⊢
      refine andThen_mono (hf _) (fun w r h => andThen_mono' (fun u r h => ?_) h) h
      cases u
      · exact h
      · exact ho _ _ h
    · intro vs r h
      cases vs with
      | nil => simpa [forceAll] using h
      | cons v vs =>
        rw [forceAll] at h ⊢
        exact andThen_mono (hf _) (fun w r h => andThen_mono (hl _) (fun _ _ h => h) h) h

theorem eval_mono {P : World K} {m m' v r} (h : eval P m v = some r) (hm : m ≤ m') : eval P m' v = some r := by
  induction hm with
  | refl => exact h
  | step _ ih => exact (fuel_succ P _).1 _ _ ih

theorem force_mono {P : World K} {m m' v r} (h : force P m v = some r) (hm : m ≤ m') : force P m' v = some r := by
  induction hm with
  | refl => exact h
  | step _ ih => exact (fuel_succ P _).2.1 _ _ ih

theorem apply_mono {P : World K} {m m' v vs r} (h : apply P m v vs = some r) (hm : m ≤ m') :
    apply P m' v vs = some r := by
  induction hm with
  | refl => exact h
  | step _ ih => exact (fuel_succ P _).2.2.1 _ _ _ ih

theorem operand_mono {P : World K} {m m' v r} (h : operand P m v = some r) (hm : m ≤ m') :
    operand P m' v = some r := by
  induction hm with
  | refl => exact h
  | step _ ih => exact (fuel_succ P _).2.2.2.1 _ _ ih

theorem forceAll_mono {P : World K} {m m' v r} (h : forceAll P m v = some r) (hm : m ≤ m') :
    forceAll P m' v = some r := by
  induction hm with
  | refl => exact h
  | step _ ih => exact (fuel_succ P _).2.2.2.2 _ _ ih

/-! ## What the interpreter finds, steps reach -/

def Goes (P : World K) (c : Cfg K) (S : List (Fr K)) : R K → Prop
  | .ok w => ∃ n, Steps P n c (w, S)
  | .error x => ∃ n, Term P n c (.error x)

theorem Goes.step {P : World K} {c c' S r} (h : sstep P c = .next c') (g : Goes P c' S r) : Goes P c S r := by
  cases r with
  | ok w => obtain ⟨n, g⟩ := g; exact ⟨n + 1, .next h g⟩
  | error x => obtain ⟨n, g⟩ := g; exact ⟨n + 1, .next h g⟩

theorem Goes.seq {P : World K} {c S S' w r} (h : Goes P c S' (.ok w)) (g : Goes P (w, S') S r) : Goes P c S r := by
  obtain ⟨m, h⟩ := h
  cases r with
  | ok w => obtain ⟨n, g⟩ := g; exact ⟨m + n, h.trans g⟩
  | error x => obtain ⟨n, g⟩ := g; exact ⟨m + n, h.term g⟩

theorem Goes.fail {P : World K} {c S x} (h : sstep P c = .err x) : Goes P c S (.error x) := ⟨0, .err h⟩

theorem Goes.here {P : World K} {w S} : Goes P (w, S) S (.ok w) := ⟨0, .refl _⟩

/-- A value with no metadata on it. -/
def Plain (w : Val K) : Prop := Whnf w = true ∧ ∀ m b e, w ≠ .clo 0 (.metaOf m b) e

/-- A frame that lets metadata pass. -/
def Fr.Passes : Fr K → Prop
  | .demeta _ _ _ => False
  | .top => False
  | _ => True

theorem plain_cases {v : Val K} (h : Plain v) :
    (∃ k, v = .nat k) ∨ (∃ a c e, v = .clo (a + 1) c e) ∨ (∃ t as e, v = .clo 0 (.cons t as) e) := by
  rcases whnf_cases h.1 with h | h | h | ⟨m, b, e, h'⟩
  · exact .inl h
  · exact .inr (.inl h)
  · exact .inr (.inr h)
  · exact absurd h' (h.2 m b e)

theorem sstep_give {P : World K} {w S fr} (h : Plain w) : sstep P (w, fr :: S) = give P w S fr := by
  rcases plain_cases h with ⟨k, rfl⟩ | ⟨a, c, e, rfl⟩ | ⟨t, as, e, rfl⟩ <;> rfl

theorem giveMeta_passes {P : World K} {m b e S fr} (h : Fr.Passes fr) :
    giveMeta P m b e S fr = .of (resolve P e b) (fr :: S) := by
  cases fr <;> simp_all [giveMeta, Fr.Passes]

theorem shape_annotated {w : Val K} {m b e} (h : shape w = .annotated m b e) : w = .clo 0 (.metaOf m b) e := by
  rcases w with k | ⟨_ | a, c, e'⟩
  · simp [shape] at h
  · cases c <;> simp [shape] at h; obtain ⟨rfl, rfl, rfl⟩ := h; rfl
  · simp [shape] at h

theorem whnf_plain {w : Val K} (h : Whnf w = true) (hn : ∀ m b e, shape w ≠ .annotated m b e) : Plain w :=
  ⟨h, fun m b e hw => hn m b e (by rw [hw]; rfl)⟩

def WhnfR : R K → Prop
  | .ok w => Whnf w = true
  | .error _ => True

def PlainR : R K → Prop
  | .ok w => Plain w
  | .error _ => True

theorem goes_of {P : World K} {c S S' r t} (hs : sstep P c = .of r S') (h : ∀ v, r = .ok v → Goes P (v, S') S t)
    (he : ∀ x, r = .error x → t = .error x) : Goes P c S t := by
  cases r with
  | ok v => exact .step hs (h v rfl)
  | error x => rw [he x rfl]; exact .fail hs

theorem sound (P : World K) (m : Nat) :
    (∀ v r, eval P m v = some r → WhnfR r ∧ ∀ S, Goes P (v, S) S r) ∧
    (∀ v r, force P m v = some r → PlainR r ∧ ∀ fr S, Fr.Passes fr → Goes P (v, fr :: S) (fr :: S) r) ∧
    (∀ v vs r, apply P m v vs = some r → WhnfR r ∧ ∀ S, Goes P (v, .apply vs :: S) S r) ∧
    (∀ v r, operand P m v = some r → PlainR r ∧ (∀ w, r = .ok w → unbox P w = .ok none) ∧
      ∀ fr S, ((∃ id r e, fr = .fusedL id r e) ∨ ∃ id l, fr = .fusedR id l) → Goes P (v, fr :: S) (fr :: S) r) ∧
    (∀ v vs r, forceAll P m (v :: vs) = some r → ∀ id dn S,
      (∀ x, r = .error x → Goes P (v, .prim id dn vs :: S) S (.error x)) ∧
      ∀ ws t, r = .ok ws → (∀ u, intrinsic P id (dn ++ ws) = .ok u → Goes P (u, S) S t) →
        (∀ x, intrinsic P id (dn ++ ws) = .error x → t = .error x) → Goes P (v, .prim id dn vs :: S) S t) := by
  induction m with
  | zero => refine ⟨?_, ?_, ?_, ?_, ?_⟩ <;> (intros; simp_all [eval, force, apply, operand, forceAll])
  | succ m ih =>
    obtain ⟨he, hf, ha, ho, hl⟩ := ih
    -- an `Except` followed by `eval`
    have hof : ∀ (a : R K) r, andThen (some a) (eval P m) = some r → WhnfR r ∧
        ∀ c S, sstep P c = .of a S → Goes P c S r := by
      intro a r h
      cases a with
      | ok v =>
        have := he _ _ (by simpa [andThen] using h)
        exact ⟨this.1, fun c S hs => .step hs (this.2 S)⟩
      | error x =>
        simp [andThen] at h; subst h
        exact ⟨trivial, fun c S hs => .fail hs⟩
    refine ⟨?_, ?_, ?_, ?_, ?_⟩
    · intro v r h
      rcases v with k | ⟨_ | a, c, e⟩
      · simp only [eval, Option.some.injEq] at h; subst h; exact ⟨rfl, fun S => .here⟩
      · cases c <;> simp only [eval] at h
        case cons => simp only [Option.some.injEq] at h; subst h; exact ⟨rfl, fun S => .here⟩
        case metaOf => simp only [Option.some.injEq] at h; subst h; exact ⟨rfl, fun S => .here⟩
        case lookup => simp only [Option.some.injEq] at h; subst h; exact ⟨trivial, fun S => .fail rfl⟩
        case hole => simp only [Option.some.injEq] at h; subst h; exact ⟨trivial, fun S => .fail rfl⟩
        case atom => have := hof _ _ h; exact ⟨this.1, fun S => this.2 _ _ rfl⟩
        case case scr bs fb =>
          cases hw : force P m (.clo 0 scr e) with
          | none => simp [hw, andThen] at h
          | some t =>
            cases t with
            | error x =>
              simp only [hw, andThen, Option.some.injEq] at h; subst h
              have g := (hf _ _ hw).2 (.case bs fb e)
              refine ⟨trivial, fun S => ?_⟩
              obtain ⟨n, g⟩ := g S trivial
              exact ⟨n + 1, .next rfl g⟩
            | ok w =>
              simp only [hw, andThen] at h
              have ⟨hp, g⟩ := hf _ _ hw
              have ⟨hr, g'⟩ := hof _ _ h
              refine ⟨hr, fun S => .step rfl (.seq (g (.case bs fb e) S trivial) (g' _ _ ?_))⟩
              rw [sstep_give hp]; rfl
        case app f args eager =>
          cases hw : app P e f args eager with
          | error x =>
            simp only [hw, andThen, Option.some.injEq] at h; subst h
            refine ⟨trivial, fun S => .fail ?_⟩
            simp [sstep, exec, hw]
          | ok p =>
            obtain ⟨v, vs⟩ := p
            simp only [hw, andThen] at h
            have := ha _ _ _ h
            refine ⟨this.1, fun S => .step ?_ (this.2 S)⟩
            simp [sstep, exec, hw]
        case dapp smid f args eager =>
          cases hw : app P e f args eager with
          | error x =>
            simp only [hw, andThen, Option.some.injEq] at h; subst h
            refine ⟨trivial, fun S => .fail ?_⟩
            simp [sstep, exec, hw]
          | ok p =>
            obtain ⟨v, vs⟩ := p
            simp only [hw, andThen] at h
            have := ha _ _ _ h
            refine ⟨this.1, fun S => .step ?_ (this.2 S)⟩
            simp [sstep, exec, hw]
        case «bif» id args =>
          cases hw : resolveAll P e args with
          | error x =>
            simp only [hw, andThen, Option.some.injEq] at h; subst h
            refine ⟨trivial, fun S => .fail ?_⟩
            simp [sstep, exec, hw]
          | ok vs =>
            simp only [hw, andThen] at h
            cases vs with
            | nil =>
              cases m with
              | zero => simp [forceAll] at h
              | succ m' =>
                simp only [forceAll] at h
                have := hof _ _ h
                exact ⟨this.1, fun S => this.2 _ _ (by simp [sstep, exec, hw])⟩
            | cons v vs =>
              cases hq : forceAll P m (v :: vs) with
              | none => simp [hq] at h
              | some t =>
                have := hl _ _ _ hq
                cases t with
                | error x =>
                  simp only [hq, Option.some.injEq] at h; subst h
                  refine ⟨trivial, fun S => .step (c' := (v, .prim id [] vs :: S)) ?_ ((this id [] S).1 x rfl)⟩
                  simp [sstep, exec, hw]
                | ok ws =>
                  simp only [hq] at h
                  have h' := hof _ _ h
                  refine ⟨h'.1, fun S => .step (c' := (v, .prim id [] vs :: S)) ?_
                    ((this id [] S).2 ws r rfl ?_ ?_)⟩
                  · simp [sstep, exec, hw]
                  · intro u hu
                    simp only [List.nil_append] at hu
                    simp only [hu] at h
                    exact (he _ _ h).2 S
                  · intro x hx
                    simp only [List.nil_append] at hx
                    simp only [hx, Option.some.injEq] at h
                    exact h.symm
        case let_ => have := he _ _ h; exact ⟨this.1, fun S => .step rfl (this.2 S)⟩
        case letrec => have := he _ _ h; exact ⟨this.1, fun S => .step rfl (this.2 S)⟩
        case ann => have := he _ _ h; exact ⟨this.1, fun S => .step rfl (this.2 S)⟩
        case demeta scr hd o =>
          cases hw : eval P m (.clo 0 scr e) with
          | none => simp [hw, andThen] at h
          | some t =>
            have ⟨hp, g⟩ := he _ _ hw
            cases t with
            | error x =>
              simp only [hw, andThen, Option.some.injEq] at h; subst h
              refine ⟨trivial, fun S => ?_⟩
              obtain ⟨n, g⟩ := g (.demeta hd o e :: S)
              exact ⟨n + 1, .next rfl g⟩
            | ok w =>
              simp only [hw, andThen] at h
              split at h
              · rename_i mm b de hs
                have := shape_annotated hs; subst this
                cases hq : resolveAll P de [mm, b] with
                | error x =>
                  simp only [hq, Option.some.injEq] at h; subst h
                  refine ⟨trivial, fun S => .step rfl (.seq (g _) (.fail ?_))⟩
                  simp [sstep, giveMeta, hq]
                | ok vs =>
                  simp only [hq] at h
                  have := he _ _ h
                  refine ⟨this.1, fun S => .step rfl (.seq (g _) (.step ?_ (this.2 S)))⟩
                  simp [sstep, giveMeta, hq]
              · rename_i hs
                have hpl : Plain w := whnf_plain hp hs
                have := he _ _ h
                refine ⟨this.1, fun S => .step rfl (.seq (g _) (.step ?_ (this.2 S)))⟩
                rw [sstep_give hpl]; rfl
        case seq scr body =>
          cases hw : force P m (.clo 0 scr e) with
          | none => simp [hw, andThen] at h
          | some t =>
            have ⟨hp, g⟩ := hf _ _ hw
            cases t with
            | error x =>
              simp only [hw, andThen, Option.some.injEq] at h; subst h
              refine ⟨trivial, fun S => ?_⟩
              obtain ⟨n, g⟩ := g (.seq body e) S trivial
              exact ⟨n + 1, .next rfl g⟩
            | ok w =>
              simp only [hw, andThen] at h
              have := he _ _ h
              refine ⟨this.1, fun S => .step rfl (.seq (g _ S trivial) (.step ?_ (this.2 S)))⟩
              rw [sstep_give hp]; rfl
        case fused id l r' =>
          cases hw : operand P m (.clo 0 (.atom l) e) with
          | none => simp [hw, andThen] at h
          | some t =>
            have ⟨hp, hu, g⟩ := ho _ _ hw
            cases t with
            | error x =>
              simp only [hw, andThen, Option.some.injEq] at h; subst h
              refine ⟨trivial, fun S => ?_⟩
              obtain ⟨n, g⟩ := g (.fusedL id r' e) S (.inl ⟨_, _, _, rfl⟩)
              exact ⟨n + 1, .next rfl g⟩
            | ok w =>
              simp only [hw, andThen] at h
              have hs1 : ∀ S, sstep P (w, .fusedL id r' e :: S) = .next (.clo 0 (.atom r') e, .fusedR id w :: S) := by
                intro S; rw [sstep_give hp]; simp [give, hu w rfl]
              cases hw' : operand P m (.clo 0 (.atom r') e) with
              | none => simp [hw'] at h
              | some t =>
                have ⟨hp', hu', g'⟩ := ho _ _ hw'
                cases t with
                | error x =>
                  simp only [hw', Option.some.injEq] at h; subst h
                  refine ⟨trivial, fun S => .step rfl (.seq (g _ S (.inl ⟨_, _, _, rfl⟩)) (.step (hs1 S) ?_))⟩
                  obtain ⟨n, g⟩ := g' (.fusedR id w) S (.inr ⟨_, _, rfl⟩)
                  exact ⟨n, g⟩
                | ok w' =>
                  simp only [hw'] at h
                  have h' := hof _ _ h
                  refine ⟨h'.1, fun S => .step rfl (.seq (g _ S (.inl ⟨_, _, _, rfl⟩)) (.step (hs1 S)
                    (.seq (g' _ S (.inr ⟨_, _, rfl⟩)) (h'.2 _ _ ?_))))⟩
                  rw [sstep_give hp']; simp [give, hu' w' rfl]
      · simp only [eval, Option.some.injEq] at h; subst h; exact ⟨rfl, fun S => .here⟩
    · intro v r h
      rw [force] at h
      cases hw : eval P m v with
      | none => simp [hw, andThen] at h
      | some t =>
        have ⟨hp, g⟩ := he _ _ hw
        cases t with
        | error x =>
          simp only [hw, andThen, Option.some.injEq] at h; subst h
          refine ⟨trivial, fun fr S _ => ?_⟩
          obtain ⟨n, g⟩ := g (fr :: S)
          exact ⟨n, g⟩
        | ok w =>
          simp only [hw, andThen] at h
          split at h
          · rename_i mm b de hs
            have := shape_annotated hs; subst this
            cases hq : resolve P de b with
            | error x =>
              simp only [hq, Option.some.injEq] at h; subst h
              refine ⟨trivial, fun fr S hfr => .seq (g _) (.fail ?_)⟩
              show giveMeta P mm b de S fr = _
              rw [giveMeta_passes hfr, hq]; rfl
            | ok u =>
              simp only [hq] at h
              have := hf _ _ h
              refine ⟨this.1, fun fr S hfr => .seq (g _) (.step ?_ (this.2 fr S hfr))⟩
              show giveMeta P mm b de S fr = _
              rw [giveMeta_passes hfr, hq]; rfl
          · rename_i hs
            simp only [Option.some.injEq] at h; subst h
            exact ⟨whnf_plain hp hs, fun fr S _ => g _⟩
    · intro v vs r h
      rw [apply] at h
      cases hw : force P m v with
      | none => simp [hw, andThen] at h
      | some t =>
        have ⟨hp, g⟩ := hf _ _ hw
        cases t with
        | error x =>
          simp only [hw, andThen, Option.some.injEq] at h; subst h
          refine ⟨trivial, fun S => ?_⟩
          obtain ⟨n, g⟩ := g (.apply vs) S trivial
          exact ⟨n, g⟩
        | ok w =>
          simp only [hw, andThen] at h
          have hs : ∀ S, sstep P (w, .apply vs :: S) = give P w S (.apply vs) := fun S => sstep_give hp
          cases hq : onApply P w vs with
          | error x =>
            simp only [hq, Option.some.injEq] at h; subst h
            refine ⟨trivial, fun S => .seq (g _ S trivial) (.fail ?_)⟩
            rw [hs]; simp [give, hq]
          | ok p =>
            obtain ⟨u, _ | rest⟩ := p
            · simp only [hq] at h
              have := he _ _ h
              refine ⟨this.1, fun S => .seq (g _ S trivial) (.step ?_ (this.2 S))⟩
              rw [hs]; simp [give, hq]
            · simp only [hq] at h
              have := ha _ _ _ h
              refine ⟨this.1, fun S => .seq (g _ S trivial) (.step ?_ (this.2 S))⟩
              rw [hs]; simp [give, hq]
    · intro v r h
      rw [operand] at h
      cases hw : force P m v with
      | none => simp [hw, andThen] at h
      | some t =>
        have ⟨hp, g⟩ := hf _ _ hw
        have hpass : ∀ fr : Fr K, ((∃ id r e, fr = .fusedL id r e) ∨ ∃ id l, fr = .fusedR id l) → Fr.Passes fr := by
          rintro fr (⟨_, _, _, rfl⟩ | ⟨_, _, rfl⟩) <;> trivial
        cases t with
        | error x =>
          simp only [hw, andThen, Option.some.injEq] at h; subst h
          refine ⟨trivial, fun w h => (nomatch h), fun fr S hfr => ?_⟩
          obtain ⟨n, g⟩ := g fr S (hpass fr hfr)
          exact ⟨n, g⟩
        | ok w =>
          simp only [hw, andThen] at h
          cases hq : unbox P w with
          | error x =>
            simp only [hq, Option.some.injEq] at h; subst h
            refine ⟨trivial, fun w h => (nomatch h), fun fr S hfr => .seq (g _ S (hpass fr hfr)) (.fail ?_)⟩
            rw [sstep_give hp]
            rcases hfr with ⟨_, _, _, rfl⟩ | ⟨_, _, rfl⟩ <;> simp [give, hq]
          | ok p =>
            cases p with
            | none =>
              simp only [hq, Option.some.injEq] at h; subst h
              exact ⟨hp, fun w h => by cases h; exact hq, fun fr S hfr => g _ S (hpass fr hfr)⟩
            | some u =>
              simp only [hq] at h
              have := ho _ _ h
              refine ⟨this.1, this.2.1, fun fr S hfr => .seq (g _ S (hpass fr hfr)) (.step ?_ (this.2.2 fr S hfr))⟩
              rw [sstep_give hp]
              rcases hfr with ⟨_, _, _, rfl⟩ | ⟨_, _, rfl⟩ <;> simp [give, hq]
    · intro v vs r h id dn S
      rw [forceAll] at h
      cases hw : force P m v with
      | none => simp [hw, andThen] at h
      | some t =>
        have ⟨hp, g⟩ := hf _ _ hw
        have g := g (.prim id dn vs) S trivial
        cases t with
        | error x =>
          simp only [hw, andThen, Option.some.injEq] at h; subst h
          refine ⟨fun x hx => ?_, fun ws t hr => nomatch hr⟩
          cases hx
          obtain ⟨n, g⟩ := g
          exact ⟨n, g⟩
        | ok w =>
          simp only [hw, andThen] at h
          have hs := sstep_give (P := P) (S := S) (fr := .prim id dn vs) hp
          cases hq : forceAll P m vs with
          | none => simp [hq] at h
          | some t =>
            cases vs with
            | nil =>
              cases m with
              | zero => simp [forceAll] at hq
              | succ m' =>
                simp only [forceAll, Option.some.injEq] at hq
                subst hq
                simp only [forceAll, Option.some.injEq] at h
                subst h
                refine ⟨fun x hx => (nomatch hx), fun ws t hr hk hx => ?_⟩
                cases hr
                refine .seq g (goes_of (r := intrinsic P id (dn ++ [w])) ?_ hk hx)
                rw [hs]; rfl
            | cons v' vs =>
              have hrec := hl _ _ _ hq id (dn ++ [w]) S
              have hs' : sstep P (w, .prim id dn (v' :: vs) :: S) = .next (v', .prim id (dn ++ [w]) vs :: S) := hs
              cases t with
              | error x =>
                simp only [hq, Option.some.injEq] at h; subst h
                refine ⟨fun x hx => ?_, fun ws t hr => nomatch hr⟩
                cases hx
                exact .seq g (.step hs' (hrec.1 _ rfl))
              | ok ws =>
                simp only [hq, Option.some.injEq] at h; subst h
                refine ⟨fun x hx => (nomatch hx), fun ws' t hr hk hx => ?_⟩
                cases hr
                refine .seq g (.step hs' (hrec.2 ws t rfl ?_ ?_))
                · simpa [List.append_assoc] using hk
                · simpa [List.append_assoc] using hx

/-! ## What steps reach, the interpreter finds -/

/-- The ends of fewer than `N` steps are found. -/
def Found (P : World K) (N : Nat) : Prop := ∀ k < N, ∀ v r, Term P k (v, []) r → ∃ m, eval P m v = some r

theorem found_force {P : World K} {N : Nat} (ih : Found P N) {n v fr r} (hn : n < N) (hfr : Fr.Passes fr)
    (h : Term P n (v, [fr]) r) :
    ∃ m t, force P m v = some t ∧
      (match t with | .error x => r = .error x | .ok w => Plain w ∧ ∃ n' ≤ n, Term P n' (w, [fr]) r) := by
  induction n using Nat.strongRecOn generalizing v with
  | ind n ihn =>
    obtain ⟨k, t, hk, ht, hm⟩ := Term.split (S' := []) (S := [fr]) h rfl
    obtain ⟨m, hev⟩ := ih k (by omega) v t ht
    cases t with
    | error x => exact ⟨m + 1, .error x, by simp [force, hev, andThen], hm⟩
    | ok w =>
      dsimp only at hm
      have hw := (ht.done_steps rfl).2
      by_cases hs : ∃ mm b e, shape w = .annotated mm b e
      · obtain ⟨mm, b, e, hs⟩ := hs
        have := shape_annotated hs; subst this
        have hst : sstep P (.clo 0 (.metaOf mm b) e, [fr]) = .of (resolve P e b) [fr] := giveMeta_passes hfr
        cases hq : resolve P e b with
        | error x =>
          rw [hq] at hst
          refine ⟨m + 1, .error x, by simp [force, hev, andThen, shape, hq], ?_⟩
          generalize hj : n - k = j at hm
          cases hm <;> simp_all [SRes.of]
        | ok u =>
          rw [hq] at hst
          generalize hj : n - k = j at hm
          cases hm with
          | done h' => simp_all [SRes.of]
          | err h' => simp_all [SRes.of]
          | next h' t' =>
            rename_i j
            rw [hst] at h'; cases h'
            obtain ⟨m', t, hf, hr⟩ := ihn j (by omega) (by omega) t'
            refine ⟨max m m' + 1, t, ?_, ?_⟩
            · simp [force, eval_mono hev (Nat.le_max_left m m'), andThen, shape, hq,
                force_mono hf (Nat.le_max_right m m')]
            · cases t with
              | error x => exact hr
              | ok w => obtain ⟨a, n', b, c⟩ := hr; exact ⟨a, n', by omega, c⟩
      · refine ⟨m + 1, .ok w, ?_, whnf_plain hw fun a b c h => hs ⟨a, b, c, h⟩, n - k, by omega, hm⟩
        simp only [force, hev, andThen]
        split
        · exact absurd ⟨_, _, _, ‹_›⟩ hs
        · rfl

theorem found_apply {P : World K} {N : Nat} (ih : Found P N) {n v vs r} (hn : n < N)
    (h : Term P n (v, [.apply vs]) r) : ∃ m, apply P m v vs = some r := by
  induction n using Nat.strongRecOn generalizing v vs with
  | ind n ihn =>
    obtain ⟨m, t, hf, ht⟩ := found_force ih hn (fr := .apply vs) trivial h
    cases t with
    | error x => dsimp only at ht; subst ht; exact ⟨m + 1, by simp [apply, hf, andThen]⟩
    | ok w =>
      obtain ⟨hp, n', hn', ht⟩ := ht
      have hs : sstep P (w, [.apply vs]) = give P w [] (.apply vs) := sstep_give hp
      cases hq : onApply P w vs with
      | error x =>
        simp only [give, hq] at hs
        refine ⟨m + 1, ?_⟩
        cases ht <;> simp_all [apply, andThen]
      | ok p =>
        obtain ⟨u, _ | rest⟩ := p
        · simp only [give, hq] at hs
          cases ht with
          | done h' => simp_all
          | err h' => simp_all
          | next h' t' =>
            rw [hs] at h'; cases h'
            obtain ⟨m', he⟩ := ih _ (by omega) _ _ t'
            exact ⟨max m m' + 1, by
              simp [apply, force_mono hf (Nat.le_max_left m m'), andThen, hq, eval_mono he (Nat.le_max_right m m')]⟩
        · simp only [give, hq] at hs
          cases ht with
          | done h' => simp_all
          | err h' => simp_all
          | next h' t' =>
            rw [hs] at h'; cases h'
            obtain ⟨m', he⟩ := ihn _ (by omega) (by omega) t'
            exact ⟨max m m' + 1, by
              simp [apply, force_mono hf (Nat.le_max_left m m'), andThen, hq, apply_mono he (Nat.le_max_right m m')]⟩

theorem found_operand {P : World K} {N : Nat} (ih : Found P N) {n v fr r} (hn : n < N)
    (hfr : (∃ id r e, fr = .fusedL id r e) ∨ ∃ id l, fr = .fusedR id l) (h : Term P n (v, [fr]) r) :
    ∃ m t, operand P m v = some t ∧
      (match t with
        | .error x => r = .error x
        | .ok w => Plain w ∧ unbox P w = .ok none ∧ ∃ n' ≤ n, Term P n' (w, [fr]) r) := by
  induction n using Nat.strongRecOn generalizing v with
  | ind n ihn =>
    have hpass : Fr.Passes fr := by rcases hfr with ⟨_, _, _, rfl⟩ | ⟨_, _, rfl⟩ <;> trivial
    obtain ⟨m, t, hf, ht⟩ := found_force ih hn hpass h
    cases t with
    | error x => exact ⟨m + 1, .error x, by simp [operand, hf, andThen], ht⟩
    | ok w =>
      obtain ⟨hp, n', hn', ht⟩ := ht
      have hs : sstep P (w, [fr]) = give P w [] fr := sstep_give hp
      cases hq : unbox P w with
      | error x =>
        refine ⟨m + 1, .error x, by simp [operand, hf, andThen, hq], ?_⟩
        have : give P w [] fr = .err x := by
          rcases hfr with ⟨_, _, _, rfl⟩ | ⟨_, _, rfl⟩ <;> simp [give, hq]
        rw [this] at hs
        cases ht <;> simp_all
      | ok p =>
        cases p with
        | none => exact ⟨m + 1, .ok w, by simp [operand, hf, andThen, hq], hp, hq, n', hn', ht⟩
        | some u =>
          have : give P w [] fr = .next (u, [fr]) := by
            rcases hfr with ⟨_, _, _, rfl⟩ | ⟨_, _, rfl⟩ <;> simp [give, hq]
          rw [this] at hs
          cases ht with
          | done h' => simp_all
          | err h' => simp_all
          | next h' t' =>
            rw [hs] at h'; cases h'
            obtain ⟨m', t, he, hr⟩ := ihn _ (by omega) (by omega) t'
            refine ⟨max m m' + 1, t, ?_, ?_⟩
            · simp [operand, force_mono hf (Nat.le_max_left m m'), andThen, hq, operand_mono he (Nat.le_max_right m m')]
            · cases t with
              | error x => exact hr
              | ok w => obtain ⟨a, b, n', c, d⟩ := hr; exact ⟨a, b, n', by omega, d⟩

theorem found_all {P : World K} {N : Nat} (ih : Found P N) {n v id dn vs r} (hn : n < N)
    (h : Term P n (v, [.prim id dn vs]) r) :
    ∃ m t, forceAll P m (v :: vs) = some t ∧
      (match t with
        | .error x => r = .error x
        | .ok ws => match intrinsic P id (dn ++ ws) with
          | .error x => r = .error x
          | .ok u => ∃ n' < n, Term P n' (u, []) r) := by
  induction vs generalizing n v dn with
  | nil =>
    obtain ⟨m, t, hf, ht⟩ := found_force ih hn (fr := .prim id dn []) trivial h
    cases t with
    | error x => exact ⟨m + 1, .error x, by simp [forceAll, hf, andThen], ht⟩
    | ok w =>
      obtain ⟨hp, n', hn', ht⟩ := ht
      have hs : sstep P (w, [.prim id dn []]) = .of (intrinsic P id (dn ++ [w])) [] := sstep_give hp
      refine ⟨max m 1 + 1, .ok [w], ?_, ?_⟩
      · have : ∃ j, max m 1 = j + 1 := ⟨max m 1 - 1, by omega⟩
        obtain ⟨j, hj⟩ := this
        have := force_mono hf (Nat.le_max_left m 1)
        rw [hj] at this ⊢
        rw [forceAll]
        simp [this, andThen, forceAll]
      · dsimp only
        cases hq : intrinsic P id (dn ++ [w]) with
        | error x =>
          rw [hq] at hs
          cases ht <;> simp_all [SRes.of]
        | ok u =>
          rw [hq] at hs
          cases ht with
          | done h' => simp_all [SRes.of]
          | err h' => simp_all [SRes.of]
          | next h' t' =>
            rw [hs] at h'; cases h'
            exact ⟨_, by omega, t'⟩
  | cons v' vs ihv =>
    obtain ⟨m, t, hf, ht⟩ := found_force ih hn (fr := .prim id dn (v' :: vs)) trivial h
    cases t with
    | error x => exact ⟨m + 1, .error x, by simp [forceAll, hf, andThen], ht⟩
    | ok w =>
      obtain ⟨hp, n', hn', ht⟩ := ht
      have hs : sstep P (w, [.prim id dn (v' :: vs)]) = .next (v', [.prim id (dn ++ [w]) vs]) := sstep_give hp
      cases ht with
      | done h' => simp_all
      | err h' => simp_all
      | next h' t' =>
        rw [hs] at h'; cases h'
        obtain ⟨m', t, he, hr⟩ := ihv (by omega) t'
        have e1 := force_mono hf (Nat.le_max_left m m')
        have e2 := forceAll_mono he (Nat.le_max_right m m')
        cases t with
        | error x => exact ⟨max m m' + 1, .error x, by rw [forceAll]; simp [e1, e2, andThen], hr⟩
        | ok ws =>
          refine ⟨max m m' + 1, .ok (w :: ws), by rw [forceAll]; simp [e1, e2, andThen], ?_⟩
          dsimp only at hr ⊢
          rw [List.append_assoc, List.singleton_append] at hr
          split
          · rename_i hx; rw [hx] at hr; exact hr
          · rename_i hx; rw [hx] at hr; obtain ⟨n', a, b⟩ := hr; exact ⟨n', by omega, b⟩

theorem complete (P : World K) {n v r} (h : Term P n (v, []) r) : ∃ m, eval P m v = some r := by
  induction n using Nat.strongRecOn generalizing v r with
  | ind n ihn =>
    have ih : Found P n := fun k hk v r h => ihn k hk h
    rcases v with k | ⟨_ | a, c, e⟩
    · have hs : sstep P (Val.nat k, []) = .done (.nat k) := rfl
      cases h <;> simp_all
      exact ⟨1, rfl⟩
    · have hs : Whnf (.clo 0 c e) = true ∨ sstep P (Val.clo 0 c e, []) = exec P c e [] := by
        cases c <;> first | exact .inl rfl | exact .inr rfl
      rcases hs with hs | hs
      · have := sstep_whnf (P := P) hs
        cases h <;> simp_all
        refine ⟨1, ?_⟩
        rcases whnf_cases hs with ⟨k, hv⟩ | ⟨a, c, e, hv⟩ | ⟨t, as, e, hv⟩ | ⟨m, b, e, hv⟩ <;> simp at hv
        · obtain ⟨rfl, rfl⟩ := hv; rfl
        · obtain ⟨rfl, rfl⟩ := hv; rfl
      · -- a result, then the rest
        have hof : ∀ (a : R K), exec P c e [] = .of a [] →
            ∃ m, andThen (some a) (eval P m) = some r := by
          intro a ha
          rw [ha] at hs
          cases a with
          | error x =>
            refine ⟨0, ?_⟩
            cases h <;> simp_all [SRes.of, andThen]
          | ok u =>
            cases h with
            | done h' => simp_all [SRes.of]
            | err h' => simp_all [SRes.of]
            | next h' t' =>
              rw [hs] at h'; cases h'
              obtain ⟨m, he⟩ := ih _ (by omega) _ _ t'
              exact ⟨m, he⟩
        have hnext : ∀ d, exec P c e [] = .next d → ∃ n', n = n' + 1 ∧ Term P n' d r := by
          intro d hd
          rw [hd] at hs
          cases h with
          | done h' => simp_all
          | err h' => simp_all
          | next h' t' => rw [hs] at h'; cases h'; exact ⟨_, rfl, t'⟩
        have herr : ∀ x, exec P c e [] = .err x → r = .error x := by
          intro x hx
          rw [hx] at hs
          cases h <;> simp_all
        cases c with
        | atom x => obtain ⟨m, hm⟩ := hof _ rfl; exact ⟨m + 1, by rw [eval]; exact hm⟩
        | cons t as => have := herr _ rfl; have h2 := term_whnf (P := P) (v := .clo 0 (.cons t as) e) rfl; have := h.det h2; simp_all
        | metaOf m b => have := herr _ rfl; have h2 := term_whnf (P := P) (v := .clo 0 (.metaOf m b) e) rfl; have := h.det h2; simp_all
        | lookup => exact ⟨1, by rw [herr _ rfl]; rfl⟩
        | hole => exact ⟨1, by rw [herr _ rfl]; rfl⟩
        | let_ fs body =>
          obtain ⟨n', rfl, t'⟩ := hnext _ rfl
          obtain ⟨m, he⟩ := ih _ (by omega) _ _ t'
          exact ⟨m + 1, by rw [eval]; exact he⟩
        | letrec fs body =>
          obtain ⟨n', rfl, t'⟩ := hnext _ rfl
          obtain ⟨m, he⟩ := ih _ (by omega) _ _ t'
          exact ⟨m + 1, by rw [eval]; exact he⟩
        | ann _ body =>
          obtain ⟨n', rfl, t'⟩ := hnext _ rfl
          obtain ⟨m, he⟩ := ih _ (by omega) _ _ t'
          exact ⟨m + 1, by rw [eval]; exact he⟩
        | case scr bs fb =>
          obtain ⟨n', rfl, t'⟩ := hnext _ rfl
          obtain ⟨m, t, hf, ht⟩ := found_force ih (by omega) (fr := .case bs fb e) trivial t'
          cases t with
          | error x => dsimp only at ht; subst ht; exact ⟨m + 1, by rw [eval]; simp [hf, andThen]⟩
          | ok w =>
            obtain ⟨hp, j, hj, ht⟩ := ht
            have hs : sstep P (w, [.case bs fb e]) = .of (onCase P w bs fb e) [] := sstep_give hp
            cases hq : onCase P w bs fb e with
            | error x =>
              rw [hq] at hs
              refine ⟨m + 1, ?_⟩
              rw [eval]
              cases ht <;> simp_all [SRes.of, andThen]
            | ok u =>
              rw [hq] at hs
              cases ht with
              | done h' => simp_all [SRes.of]
              | err h' => simp_all [SRes.of]
              | next h' t' =>
                rw [hs] at h'; cases h'
                obtain ⟨m', he⟩ := ih _ (by omega) _ _ t'
                refine ⟨max m m' + 1, ?_⟩
                rw [eval]
                simp [force_mono hf (Nat.le_max_left m m'), andThen, hq, eval_mono he (Nat.le_max_right m m')]
        | app f args eager =>
          cases hq : app P e f args eager with
          | error x =>
            have := herr x (by simp [exec, hq])
            exact ⟨1, by rw [eval]; simp [hq, andThen, this]⟩
          | ok p =>
            obtain ⟨v, vs⟩ := p
            obtain ⟨n', rfl, t'⟩ := hnext (v, [.apply vs]) (by simp [exec, hq])
            obtain ⟨m, he⟩ := found_apply ih (by omega) t'
            exact ⟨m + 1, by rw [eval]; simp [hq, andThen, he]⟩
        | dapp _ f args eager =>
          cases hq : app P e f args eager with
          | error x =>
            have := herr x (by simp [exec, hq])
            exact ⟨1, by rw [eval]; simp [hq, andThen, this]⟩
          | ok p =>
            obtain ⟨v, vs⟩ := p
            obtain ⟨n', rfl, t'⟩ := hnext (v, [.apply vs]) (by simp [exec, hq])
            obtain ⟨m, he⟩ := found_apply ih (by omega) t'
            exact ⟨m + 1, by rw [eval]; simp [hq, andThen, he]⟩
        | «bif» id args =>
          cases hq : resolveAll P e args with
          | error x =>
            have := herr x (by simp [exec, hq])
            exact ⟨1, by rw [eval]; simp [hq, andThen, this]⟩
          | ok vs =>
            cases vs with
            | nil =>
              obtain ⟨m, hm⟩ := hof (intrinsic P id []) (by simp [exec, hq])
              refine ⟨m + 1 + 1, ?_⟩
              rw [eval]
              simp only [hq, andThen, forceAll]
              cases hi : intrinsic P id [] with
              | error x => simp_all [andThen]
              | ok u => simp only [hi, andThen] at hm ⊢; exact eval_mono hm (by omega)
            | cons v vs =>
              obtain ⟨n', rfl, t'⟩ := hnext (v, [.prim id [] vs]) (by simp [exec, hq])
              obtain ⟨m, t, hf, ht⟩ := found_all ih (by omega) t'
              cases t with
              | error x => dsimp only at ht; subst ht; exact ⟨m + 1, by rw [eval]; simp [hq, hf, andThen]⟩
              | ok ws =>
                dsimp only [List.nil_append] at ht
                cases hi : intrinsic P id ws with
                | error x =>
                  simp only [hi] at ht; subst ht
                  exact ⟨m + 1, by rw [eval]; simp [hq, hf, andThen, hi]⟩
                | ok u =>
                  simp only [hi] at ht
                  obtain ⟨j, hj, ht⟩ := ht
                  obtain ⟨m', he⟩ := ih _ (by omega) _ _ ht
                  refine ⟨max m m' + 1, ?_⟩
                  rw [eval]
                  simp [hq, forceAll_mono hf (Nat.le_max_left m m'), andThen, hi, eval_mono he (Nat.le_max_right m m')]
        | demeta scr hd o =>
          obtain ⟨n', rfl, t'⟩ := hnext _ rfl
          obtain ⟨k, t, hk, ht, hm⟩ := Term.split (S' := []) (S := [.demeta hd o e]) t' rfl
          obtain ⟨m, hev⟩ := ih k (by omega) _ t ht
          cases t with
          | error x => dsimp only at hm; subst hm; exact ⟨m + 1, by rw [eval]; simp [hev, andThen]⟩
          | ok w =>
            dsimp only at hm
            have hw := (ht.done_steps rfl).2
            generalize hj : n' - k = j at hm
            by_cases hsh : ∃ mm b e, shape w = .annotated mm b e
            · obtain ⟨mm, b, de, hsh⟩ := hsh
              have := shape_annotated hsh; subst this
              cases hq : resolveAll P de [mm, b] with
              | error x =>
                have hst : sstep P (.clo 0 (.metaOf mm b) de, [.demeta hd o e]) = .err x := by
                  simp [sstep, giveMeta, hq]
                refine ⟨m + 1, ?_⟩
                rw [eval]
                cases hm <;> simp_all [andThen, shape]
              | ok vs =>
                have hst : sstep P (.clo 0 (.metaOf mm b) de, [.demeta hd o e]) = .next (.clo 0 hd (consAll vs e), []) := by
                  simp [sstep, giveMeta, hq]
                cases hm with
                | done h' => simp_all
                | err h' => simp_all
                | next h' t' =>
                  rw [hst] at h'; cases h'
                  obtain ⟨m', he⟩ := ih _ (by omega) _ _ t'
                  refine ⟨max m m' + 1, ?_⟩
                  rw [eval]
                  simp [eval_mono hev (Nat.le_max_left m m'), andThen, shape, hq, eval_mono he (Nat.le_max_right m m')]
            · have hp : Plain w := whnf_plain hw fun a b c h => hsh ⟨a, b, c, h⟩
              have hst : sstep P (w, [.demeta hd o e]) = .next (.clo 0 o (.cons w e), []) := sstep_give hp
              cases hm with
              | done h' => simp_all
              | err h' => simp_all
              | next h' t' =>
                rw [hst] at h'; cases h'
                obtain ⟨m', he⟩ := ih _ (by omega) _ _ t'
                refine ⟨max m m' + 1, ?_⟩
                rw [eval]
                simp only [eval_mono hev (Nat.le_max_left m m'), andThen]
                split
                · exact absurd ⟨_, _, _, ‹_›⟩ hsh
                · exact eval_mono he (Nat.le_max_right m m')
        | seq scr body =>
          obtain ⟨n', rfl, t'⟩ := hnext _ rfl
          obtain ⟨m, t, hf, ht⟩ := found_force ih (by omega) (fr := .seq body e) trivial t'
          cases t with
          | error x => dsimp only at ht; subst ht; exact ⟨m + 1, by rw [eval]; simp [hf, andThen]⟩
          | ok w =>
            obtain ⟨hp, j, hj, ht⟩ := ht
            have hs : sstep P (w, [.seq body e]) = .next (.clo 0 body e, []) := sstep_give hp
            cases ht with
            | done h' => simp_all
            | err h' => simp_all
            | next h' t' =>
              rw [hs] at h'; cases h'
              obtain ⟨m', he⟩ := ih _ (by omega) _ _ t'
              refine ⟨max m m' + 1, ?_⟩
              rw [eval]
              simp [force_mono hf (Nat.le_max_left m m'), andThen, eval_mono he (Nat.le_max_right m m')]
        | fused id l r' =>
          obtain ⟨n', rfl, t'⟩ := hnext _ rfl
          obtain ⟨m, t, hf, ht⟩ := found_operand ih (by omega) (fr := .fusedL id r' e) (.inl ⟨_, _, _, rfl⟩) t'
          cases t with
          | error x => dsimp only at ht; subst ht; exact ⟨m + 1, by rw [eval]; simp [hf, andThen]⟩
          | ok w =>
            obtain ⟨hp, hu, j, hj, ht⟩ := ht
            have hs : sstep P (w, [.fusedL id r' e]) = .next (.clo 0 (.atom r') e, [.fusedR id w]) := by
              rw [sstep_give hp]; simp [give, hu]
            cases ht with
            | done h' => simp_all
            | err h' => simp_all
            | next h' t' =>
              rw [hs] at h'; cases h'
              obtain ⟨m2, t, hf2, ht⟩ := found_operand ih (by omega) (fr := .fusedR id w) (.inr ⟨_, _, rfl⟩) t'
              have g1 := operand_mono hf (Nat.le_max_left m m2)
              have g2 := operand_mono hf2 (Nat.le_max_right m m2)
              cases t with
              | error x =>
                dsimp only at ht; subst ht
                exact ⟨max m m2 + 1, by rw [eval]; simp [g1, g2, andThen]⟩
              | ok w' =>
                obtain ⟨hp', hu', j', hj', ht⟩ := ht
                have hs : sstep P (w', [.fusedR id w]) = .of (intrinsic P id [w, w']) [] := by
                  rw [sstep_give hp']; simp [give, hu']
                cases hq : intrinsic P id [w, w'] with
                | error x =>
                  rw [hq] at hs
                  refine ⟨max m m2 + 1, ?_⟩
                  rw [eval]
                  simp only [g1, g2, andThen, hq]
                  cases ht <;> simp_all [SRes.of]
                | ok u =>
                  rw [hq] at hs
                  cases ht with
                  | done h' => simp_all [SRes.of]
                  | err h' => simp_all [SRes.of]
                  | next h' t' =>
                    rw [hs] at h'; cases h'
                    obtain ⟨m', he⟩ := ih _ (by omega) _ _ t'
                    refine ⟨max (max m m2) m' + 1, ?_⟩
                    rw [eval]
                    simp only [operand_mono g1 (Nat.le_max_left _ m'), operand_mono g2 (Nat.le_max_left _ m'), andThen, hq]
                    exact eval_mono he (Nat.le_max_right _ m')
    · have hs : sstep P (Val.clo (a + 1) c e, []) = .done (.clo (a + 1) c e) := rfl
      cases h <;> simp_all
      exact ⟨1, rfl⟩

/-! ## Programs -/

theorem program_sound (P : World K) {m v r} (h : program P m v = some r) : ∃ n, Term P n (v, [.top]) r := by
  induction m generalizing v r with
  | zero => simp [program] at h
  | succ m ih =>
    rw [program] at h
    cases hw : eval P m v with
    | none => simp [hw, andThen] at h
    | some t =>
      have ⟨hp, g⟩ := (sound P m).1 _ _ hw
      have g := g [.top]
      cases t with
      | error x => simp only [hw, andThen, Option.some.injEq] at h; subst h; exact g
      | ok w =>
        simp only [hw, andThen] at h
        obtain ⟨n, g⟩ := g
        split at h
        · rename_i mm b e hs
          have := shape_annotated hs; subst this
          cases hq : resolveAll P e [mm, b] with
          | error x =>
            simp only [hq, Option.some.injEq] at h; subst h
            exact ⟨n + 0, g.term (.err (by simp [sstep, giveMeta, hq]))⟩
          | ok vs =>
            simp only [hq] at h
            split at h
            · rename_i u
              obtain ⟨k, hk⟩ := ih h
              exact ⟨n + (k + 1), g.term (.next (by simp [sstep, giveMeta, hq]) hk)⟩
            · simp at h
        · rename_i hs
          simp only [Option.some.injEq] at h; subst h
          have hpl : Plain w := whnf_plain hp hs
          exact ⟨n + (0 + 1), g.term (.next (sstep_give hpl) (term_whnf hp))⟩

theorem resolveAll_length {P : World K} {e : Env K} {rs vs} (h : resolveAll P e rs = .ok vs) : vs.length = rs.length := by
  induction rs generalizing vs with
  | nil => simp [resolveAll] at h; subst h; rfl
  | cons r rs ih =>
    simp only [resolveAll] at h
    split at h
    · simp at h
    · split at h
      · simp at h
      · simp only [Except.ok.injEq] at h; subst h; simp [ih ‹_›]

theorem program_complete (P : World K) {n v r} (h : Term P n (v, [.top]) r) : ∃ m, program P m v = some r := by
  induction n using Nat.strongRecOn generalizing v with
  | ind n ihn =>
    obtain ⟨k, t, hk, ht, hm⟩ := Term.split (S' := []) (S := [.top]) h rfl
    obtain ⟨m, hev⟩ := complete P ht
    cases t with
    | error x => dsimp only at hm; subst hm; exact ⟨m + 1, by simp [program, hev, andThen]⟩
    | ok w =>
      dsimp only at hm
      have hw := (ht.done_steps rfl).2
      generalize hj : n - k = j at hm
      by_cases hs : ∃ mm b e, shape w = .annotated mm b e
      · obtain ⟨mm, b, e, hs⟩ := hs
        have := shape_annotated hs; subst this
        cases hq : resolveAll P e [mm, b] with
        | error x =>
          have hst : sstep P (.clo 0 (.metaOf mm b) e, [.top]) = .err x := by simp [sstep, giveMeta, hq]
          refine ⟨m + 1, ?_⟩
          rw [program]
          cases hm <;> simp_all [andThen, shape]
        | ok vs =>
          have hl := resolveAll_length hq
          match vs, hl, hq with
          | [u', u], _, hq =>
            have hst : sstep P (.clo 0 (.metaOf mm b) e, [.top]) = .next (u, [.top]) := by simp [sstep, giveMeta, hq]
            cases hm with
            | done h' => simp_all
            | err h' => simp_all
            | next h' t' =>
              rw [hst] at h'; cases h'
              obtain ⟨m', he⟩ := ihn _ (by omega) t'
              refine ⟨max m m' + 1, ?_⟩
              have : program P (max m m') u = some r := by
                have hmono : ∀ m v r, program P m v = some r → program P (m + 1) v = some r := by
                  intro m
                  induction m with
                  | zero => intro v r h; simp [program] at h
                  | succ m ih =>
                    intro v r h
                    rw [program] at h ⊢
                    refine andThen_mono (fun t h => eval_mono h (by omega)) (fun w r h => ?_) h
                    split at h
                    · refine andThen_mono' (fun vs r h => ?_) h
                      split at h
                      · exact ih _ _ h
                      · exact h
                    · exact h
                have : ∀ d, program P (m' + d) u = some r := by
                  intro d
                  induction d with
                  | zero => exact he
                  | succ d ih => exact hmono _ _ _ ih
                have e : max m m' = m' + (max m m' - m') := by omega
                rw [e]; exact this _
              rw [program]
              simp [eval_mono hev (Nat.le_max_left m m'), andThen, shape, hq, this]
      · have hp : Plain w := whnf_plain hw fun a b c h => hs ⟨a, b, c, h⟩
        have hst : sstep P (w, [.top]) = .next (w, []) := sstep_give hp
        cases hm with
        | done h' => simp_all
        | err h' => simp_all
        | next h' t' =>
          rw [hst] at h'; cases h'
          have := t'.det (term_whnf hw)
          refine ⟨m + 1, ?_⟩
          simp only [program, hev, andThen]
          split
          · exact absurd ⟨_, _, _, ‹_›⟩ hs
          · simp [this.2]

theorem program_iff (P : World K) {v r} : (∃ m, program P m v = some r) ↔ ∃ n, Term P n (v, [.top]) r :=
  ⟨fun ⟨_, h⟩ => program_sound P h, fun ⟨_, h⟩ => program_complete P h⟩

end Verif.Sem
