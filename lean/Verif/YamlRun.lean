import Verif.YamlScalar

/-!
# Proofs only.

The receiver of events comes to what is read off the document at once.
-/

namespace Verif.Yaml

abbrev An := List (Nat × Exp)

def keyText : Exp → Option Text
  | .lit (.str s) => some s
  | .lit (.sym s) => some s
  | _ => none

/-- What an entry does to those before it. -/
def putEntry (es : List (Text × Exp)) (k : Text) (e : Exp) : Except Err (List (Text × Exp)) :=
  if k = mergeKey then
    match extract e with
    | .ok ms => .ok (ms.foldl (fun es p => addNew es p.1 p.2) es)
    | .error er => .error er
  else .ok (override es k e)

mutual
noncomputable def evalD (o : Outside Ev) (b : Bool) : Doc → An → Except Err (Exp × An)
  | .scalar t p a g, an => match convertScalar o b t p g with
    | .ok e => .ok (e, putAnchor an a e)
    | .error er => .error er
  | .seq a ds, an => match evalL o b ds an with
    | .ok (es, an') => .ok (listE es, putAnchor an' a (listE es))
    | .error er => .error er
  | .map a es, an => match evalE o b es [] an with
    | .ok (kvs, an') => .ok (defaultLet kvs, putAnchor an' a (defaultLet kvs))
    | .error er => .error er
  | .alias i, an => match getAnchor an i with
    | some e => .ok (e, an)
    | none => .error (.alias i)
noncomputable def evalL (o : Outside Ev) (b : Bool) : Docs → An → Except Err (List Exp × An)
  | .nil, an => .ok ([], an)
  | .cons d ds, an => match evalD o b d an with
    | .ok (e, an') => match evalL o b ds an' with
      | .ok (es, an'') => .ok (e :: es, an'')
      | .error er => .error er
    | .error er => .error er
noncomputable def evalK (o : Outside Ev) (b : Bool) : Doc → An → Except Err (Text × An)
  | .scalar t _ _ _, an => .ok (t, an)
  | .seq a ds, an => match evalL o b ds an with
    | .ok _ => .error .key
    | .error er => .error er
  | .map a es, an => match evalE o b es [] an with
    | .ok _ => .error .key
    | .error er => .error er
  | .alias i, an => match getAnchor an i with
    | some e => match keyText e with
      | some t => .ok (t, an)
      | none => .error .key
    | none => .error (.alias i)
noncomputable def evalE (o : Outside Ev) (b : Bool) :
    Ents → List (Text × Exp) → An → Except Err (List (Text × Exp) × An)
  | .nil, acc, an => .ok (acc, an)
  | .cons k v es, acc, an => match evalK o b k an with
    | .error er => .error er
    | .ok (t, an') => match evalD o b v an' with
      | .error er => .error er
      | .ok (e, an'') => match putEntry acc t e with
        | .error er => .error er
        | .ok acc' => evalE o b es acc' an''
end

/-- The run ends in a state with this error. -/
def Fails (x : Option Receiver) (er : Err) : Prop := ∃ r, x = some r ∧ r.error = some er

theorem run_err (o : Outside Ev) (b : Bool) (r : Receiver) (er : Err) (h : r.error = some er)
    (evs : List Ev) : runEvents o b r evs = some r := by
  induction evs with
  | nil => rfl
  | cons ev evs ih =>
    rw [runEvents]
    have : r.onEvent o b ev = some r := by
      unfold Receiver.onEvent
      rw [if_pos (by rw [h]; rfl)]
    rw [this]; exact ih

theorem fails_run (o : Outside Ev) (b : Bool) (r : Receiver) (er : Err) (h : r.error = some er)
    (evs : List Ev) : Fails (runEvents o b r evs) er := ⟨r, run_err o b r er h evs, h⟩

theorem run_cons (o : Outside Ev) (b : Bool) (r : Receiver) (ev : Ev) (evs : List Ev) (r' : Receiver)
    (h : r.onEvent o b ev = some r') : runEvents o b r (ev :: evs) = runEvents o b r' evs := by
  rw [runEvents, h]; rfl

def NotKey (d : Doc) (st : List Expect) : Prop :=
  match d with
  | .scalar _ _ _ _ => match st with
    | .even _ _ :: _ => False
    | _ => True
  | _ => True

def OkDoc (o : Outside Ev) (b : Bool) (st : List Expect) (rest : List Ev) (x : Option Receiver) :
    Except Err (Exp × An) → Prop
  | .ok (e, an) => x = runEvents o b (Receiver.feed ⟨st, an, none⟩ e) rest
  | .error er => Fails x er

def OkDocs (o : Outside Ev) (b : Bool) (items : List Exp) (a : Nat) (st : List Expect) (rest : List Ev)
    (x : Option Receiver) : Except Err (List Exp × An) → Prop
  | .ok (es, an) => x = runEvents o b ⟨.list (items ++ es) a :: st, an, none⟩ rest
  | .error er => Fails x er

def OkKey (o : Outside Ev) (b : Bool) (acc : List (Text × Exp)) (a : Nat) (st : List Expect) (rest : List Ev)
    (x : Option Receiver) : Except Err (Text × An) → Prop
  | .ok (t, an) => x = runEvents o b ⟨.odd acc t a :: st, an, none⟩ rest
  | .error er => Fails x er

def OkEnts (o : Outside Ev) (b : Bool) (a : Nat) (st : List Expect) (rest : List Ev)
    (x : Option Receiver) : Except Err (List (Text × Exp) × An) → Prop
  | .ok (kvs, an) => x = runEvents o b ⟨.even kvs a :: st, an, none⟩ rest
  | .error er => Fails x er

theorem feed_odd (acc : List (Text × Exp)) (t : Text) (a : Nat) (st : List Expect) (an : An) (e : Exp) :
    Receiver.feed ⟨.odd acc t a :: st, an, none⟩ e =
      match putEntry acc t e with
      | .ok acc' => ⟨.even acc' a :: st, an, none⟩
      | .error er => ⟨st, an, some er⟩ := by
  unfold Receiver.feed putEntry
  dsimp only
  by_cases h : t = mergeKey
  · rw [if_pos h, if_pos h]; unfold handleMerge
    cases extract e <;> rfl
  · rw [if_neg h, if_neg h]; rfl

theorem feed_even_list (acc : List (Text × Exp)) (a : Nat) (st : List Expect) (an : An) (es : List Exp) :
    Receiver.feed ⟨.even acc a :: st, an, none⟩ (listE es) = ⟨st, an, some .key⟩ := rfl

theorem feed_even_let (acc : List (Text × Exp)) (a : Nat) (st : List Expect) (an : An)
    (es : List (Text × Exp)) :
    Receiver.feed ⟨.even acc a :: st, an, none⟩ (defaultLet es) = ⟨st, an, some .key⟩ := rfl

theorem feed_even (acc : List (Text × Exp)) (a : Nat) (st : List Expect) (an : An) (e : Exp) :
    Receiver.feed ⟨.even acc a :: st, an, none⟩ e =
      match keyText e with
      | some t => ⟨.odd acc t a :: st, an, none⟩
      | none => ⟨st, an, some .key⟩ := by
  cases e with
  | lit p => cases p <;> rfl
  | _ => rfl

mutual
theorem sim_doc (o : Outside Ev) (b : Bool) : ∀ (d : Doc) (st : List Expect) (an : An) (rest : List Ev),
    NotKey d st → OkDoc o b st rest (runEvents o b ⟨st, an, none⟩ (d.events ++ rest)) (evalD o b d an)
  | .scalar t p a g, st, an, rest, hk => by
    rw [Doc.events, evalD]
    have hev : Receiver.onEvent o b ⟨st, an, none⟩ (.scalar t p a g) =
        match convertScalar o b t p g with
        | .ok e => some (Receiver.feed ⟨st, putAnchor an a e, none⟩ e)
        | .error er => some ⟨st, an, some er⟩ := by
      unfold Receiver.onEvent
      rw [if_neg (by simp)]
      cases st with
      | nil => rfl
      | cons x st =>
        cases x with
        | even _ _ => exact absurd hk id
        | _ => rfl
    cases hc : convertScalar o b t p g with
    | ok e =>
      rw [hc] at hev
      exact run_cons o b _ _ _ _ hev
    | error er =>
      rw [hc] at hev
      show Fails _ er
      rw [List.cons_append, run_cons o b _ _ _ _ hev]
      exact fails_run o b _ er rfl _
  | .seq a ds, st, an, rest, _ => by
    rw [Doc.events, evalD]
    have h1 : runEvents o b ⟨st, an, none⟩ ((Ev.seqStart a :: (ds.events ++ [.seqEnd])) ++ rest) =
        runEvents o b ⟨.list [] a :: st, an, none⟩ (ds.events ++ (.seqEnd :: rest)) := by
      rw [List.cons_append, run_cons o b _ _ _ ⟨.list [] a :: st, an, none⟩ rfl]
      simp
    rw [h1]
    have h2 := sim_docs o b ds [] a st an (.seqEnd :: rest)
    cases hl : evalL o b ds an with
    | error er => rw [hl] at h2; exact h2
    | ok r =>
      obtain ⟨es, an'⟩ := r
      rw [hl] at h2
      show _ = _
      rw [show runEvents o b ⟨.list [] a :: st, an, none⟩ (ds.events ++ Ev.seqEnd :: rest) = _ from h2]
      exact run_cons o b _ _ _ _ rfl
  | .map a es, st, an, rest, _ => by
    rw [Doc.events, evalD]
    have h1 : runEvents o b ⟨st, an, none⟩ ((Ev.mapStart a :: (es.events ++ [.mapEnd])) ++ rest) =
        runEvents o b ⟨.even [] a :: st, an, none⟩ (es.events ++ (.mapEnd :: rest)) := by
      rw [List.cons_append, run_cons o b _ _ _ ⟨.even [] a :: st, an, none⟩ rfl]
      simp
    rw [h1]
    have h2 := sim_ents o b es [] a st an (.mapEnd :: rest)
    cases hl : evalE o b es [] an with
    | error er => rw [hl] at h2; exact h2
    | ok r =>
      obtain ⟨kvs, an'⟩ := r
      rw [hl] at h2
      show _ = _
      rw [show runEvents o b ⟨.even [] a :: st, an, none⟩ (es.events ++ Ev.mapEnd :: rest) = _ from h2]
      exact run_cons o b _ _ _ _ rfl
  | .alias i, st, an, rest, _ => by
    rw [Doc.events, evalD]
    have hev : Receiver.onEvent o b ⟨st, an, none⟩ (.alias i) =
        match getAnchor an i with
        | some e => some (Receiver.feed ⟨st, an, none⟩ e)
        | none => some ⟨st, an, some (.alias i)⟩ := rfl
    cases hg : getAnchor an i with
    | some e =>
      rw [hg] at hev
      exact run_cons o b _ _ _ _ hev
    | none =>
      rw [hg] at hev
      show Fails _ _
      rw [List.cons_append, run_cons o b _ _ _ _ hev]
      exact fails_run o b _ _ rfl _
theorem sim_docs (o : Outside Ev) (b : Bool) : ∀ (ds : Docs) (items : List Exp) (a : Nat) (st : List Expect)
    (an : An) (rest : List Ev),
    OkDocs o b items a st rest (runEvents o b ⟨.list items a :: st, an, none⟩ (ds.events ++ rest))
      (evalL o b ds an)
  | .nil, items, a, st, an, rest => by
    rw [Docs.events, evalL]
    show _ = _
    rw [List.append_nil, List.nil_append]
  | .cons d ds, items, a, st, an, rest => by
    rw [Docs.events, evalL, List.append_assoc]
    have h1 := sim_doc o b d (.list items a :: st) an (ds.events ++ rest) (by cases d <;> exact trivial)
    cases hd : evalD o b d an with
    | error er => rw [hd] at h1; exact h1
    | ok r =>
      obtain ⟨e, an'⟩ := r
      rw [hd] at h1
      rw [show runEvents o b ⟨.list items a :: st, an, none⟩ (d.events ++ (ds.events ++ rest)) = _ from h1]
      have h2 := sim_docs o b ds (items ++ [e]) a st an' rest
      dsimp only
      cases hl : evalL o b ds an' with
      | error er => rw [hl] at h2; exact h2
      | ok r =>
        obtain ⟨es, an''⟩ := r
        rw [hl] at h2
        show _ = _
        refine Eq.trans (show runEvents o b _ (ds.events ++ rest) = _ from h2) ?_
        rw [List.append_assoc]; rfl
theorem sim_key (o : Outside Ev) (b : Bool) : ∀ (d : Doc) (acc : List (Text × Exp)) (a : Nat)
    (st : List Expect) (an : An) (rest : List Ev),
    OkKey o b acc a st rest (runEvents o b ⟨.even acc a :: st, an, none⟩ (d.events ++ rest)) (evalK o b d an)
  | .scalar t p c g, acc, a, st, an, rest => by
    rw [Doc.events, evalK]
    exact run_cons o b _ _ _ _ rfl
  | .seq c ds, acc, a, st, an, rest => by
    rw [Doc.events, evalK]
    have h1 : runEvents o b ⟨.even acc a :: st, an, none⟩ ((Ev.seqStart c :: (ds.events ++ [.seqEnd])) ++ rest) =
        runEvents o b ⟨.list [] c :: .even acc a :: st, an, none⟩ (ds.events ++ (.seqEnd :: rest)) := by
      rw [List.cons_append, run_cons o b _ _ _ ⟨.list [] c :: .even acc a :: st, an, none⟩ rfl]
      simp
    rw [h1]
    have h2 := sim_docs o b ds [] c (.even acc a :: st) an (.seqEnd :: rest)
    cases hl : evalL o b ds an with
    | error er => rw [hl] at h2; exact h2
    | ok r =>
      obtain ⟨es, an'⟩ := r
      rw [hl] at h2
      show Fails _ _
      rw [show runEvents o b ⟨.list [] c :: .even acc a :: st, an, none⟩ (ds.events ++ Ev.seqEnd :: rest) = _ from h2]
      rw [run_cons o b _ _ _ ⟨st, putAnchor an' c (listE es), some .key⟩ (by
        simp only [Receiver.onEvent, List.nil_append]
        rw [if_neg (by simp), feed_even_list])]
      exact fails_run o b _ _ rfl _
  | .map c es, acc, a, st, an, rest => by
    rw [Doc.events, evalK]
    have h1 : runEvents o b ⟨.even acc a :: st, an, none⟩ ((Ev.mapStart c :: (es.events ++ [.mapEnd])) ++ rest) =
        runEvents o b ⟨.even [] c :: .even acc a :: st, an, none⟩ (es.events ++ (.mapEnd :: rest)) := by
      rw [List.cons_append, run_cons o b _ _ _ ⟨.even [] c :: .even acc a :: st, an, none⟩ rfl]
      simp
    rw [h1]
    have h2 := sim_ents o b es [] c (.even acc a :: st) an (.mapEnd :: rest)
    cases hl : evalE o b es [] an with
    | error er => rw [hl] at h2; exact h2
    | ok r =>
      obtain ⟨kvs, an'⟩ := r
      rw [hl] at h2
      show Fails _ _
      rw [show runEvents o b ⟨.even [] c :: .even acc a :: st, an, none⟩ (es.events ++ Ev.mapEnd :: rest) = _ from h2]
      rw [run_cons o b _ _ _ ⟨st, putAnchor an' c (defaultLet kvs), some .key⟩ (by
        simp only [Receiver.onEvent]
        rw [if_neg (by simp), feed_even_let])]
      exact fails_run o b _ _ rfl _
  | .alias i, acc, a, st, an, rest => by
    rw [Doc.events, evalK]
    have hev : Receiver.onEvent o b ⟨.even acc a :: st, an, none⟩ (.alias i) =
        match getAnchor an i with
        | some e => some (Receiver.feed ⟨.even acc a :: st, an, none⟩ e)
        | none => some ⟨.even acc a :: st, an, some (.alias i)⟩ := rfl
    cases hg : getAnchor an i with
    | none =>
      rw [hg] at hev
      show Fails _ _
      rw [List.cons_append, run_cons o b _ _ _ _ hev]
      exact fails_run o b _ _ rfl _
    | some e =>
      rw [hg] at hev
      dsimp only at hev ⊢
      rw [feed_even] at hev
      cases hk : keyText e with
      | some t =>
        rw [hk] at hev
        exact run_cons o b _ _ _ _ hev
      | none =>
        rw [hk] at hev
        show Fails _ _
        rw [List.cons_append, run_cons o b _ _ _ _ hev]
        exact fails_run o b _ _ rfl _
theorem sim_ents (o : Outside Ev) (b : Bool) : ∀ (es : Ents) (acc : List (Text × Exp)) (a : Nat)
    (st : List Expect) (an : An) (rest : List Ev),
    OkEnts o b a st rest (runEvents o b ⟨.even acc a :: st, an, none⟩ (es.events ++ rest))
      (evalE o b es acc an)
  | .nil, acc, a, st, an, rest => by
    rw [Ents.events, evalE]; rfl
  | .cons k v es, acc, a, st, an, rest => by
    rw [Ents.events, evalE, List.append_assoc, List.append_assoc]
    have h1 := sim_key o b k acc a st an (v.events ++ (es.events ++ rest))
    cases hk : evalK o b k an with
    | error er => rw [hk] at h1; exact h1
    | ok r =>
      obtain ⟨t, an'⟩ := r
      rw [hk] at h1
      rw [show runEvents o b ⟨.even acc a :: st, an, none⟩ (k.events ++ (v.events ++ (es.events ++ rest))) = _ from h1]
      dsimp only
      have h2 := sim_doc o b v (.odd acc t a :: st) an' (es.events ++ rest) (by cases v <;> exact trivial)
      cases hv : evalD o b v an' with
      | error er => rw [hv] at h2; exact h2
      | ok r =>
        obtain ⟨e, an''⟩ := r
        rw [hv] at h2
        rw [show runEvents o b ⟨.odd acc t a :: st, an', none⟩ (v.events ++ (es.events ++ rest)) = _ from h2]
        dsimp only
        rw [feed_odd]
        cases hp : putEntry acc t e with
        | error er => exact fails_run o b _ er rfl _
        | ok acc' => exact sim_ents o b es acc' a st an'' rest
end

theorem run_others (o : Outside Ev) (b : Bool) (r : Receiver) (n : Nat) (rest : List Ev) :
    runEvents o b r (List.replicate n .other ++ rest) = runEvents o b r rest := by
  induction n with
  | zero => rfl
  | succ n ih =>
    rw [List.replicate_succ, List.cons_append, run_cons o b r _ _ r, ih]
    unfold Receiver.onEvent
    by_cases h : r.error.isSome = true
    · rw [if_pos h]
    · rw [if_neg h]

/-- The events of a text of one document. -/
theorem read_doc (o : Outside Ev) (b : Bool) (d : Doc) (m n : Nat) :
    readEvents o b (List.replicate m .other ++ (d.events ++ List.replicate n .other)) =
      match evalD o b d [] with
      | .ok (e, _) => .ok e
      | .error er => .err er := by
  unfold readEvents
  rw [run_others]
  have h := sim_doc o b d [] [] (List.replicate n .other) (by cases d <;> exact trivial)
  cases he : evalD o b d [] with
  | ok r =>
    obtain ⟨e, an⟩ := r
    rw [he] at h
    rw [show runEvents o b {} (d.events ++ List.replicate n .other) = _ from h]
    have := run_others o b (Receiver.feed ⟨[], an, none⟩ e) n []
    rw [List.append_nil] at this
    rw [this]; rfl
  | error er =>
    rw [he] at h
    obtain ⟨r, hr, hre⟩ := h
    rw [show runEvents o b {} (d.events ++ List.replicate n .other) = _ from hr]
    simp only [hre]

end Verif.Yaml
