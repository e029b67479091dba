import Verif.EngSpec
import Verif.BcLemmas
import Verif.ImportLemmas

/-!
# Lemmas on decoding a program
-/

namespace Verif.Eng
open Verif.Bc
variable {K : Type}

/-! ## The byte engine -/

theorem argIs_shows {code : List Nat} {ks : List K} {o : Nat} {r : Ref K} (h : ArgIs code ks o r) :
    ShowsArg (byteEngine code) ks o r := by
  obtain ⟨d, h1, h2, h3⟩ := h
  exact ⟨d, by simp [byteEngine, h1, ofNode], h2, h3⟩

theorem argsAre_shows {code : List Nat} {ks : List K} : ∀ {os : List Nat} {rs : List (Ref K)}, ArgsAre code ks os rs →
    ShowsArgs (byteEngine code) ks os rs
  | [], [], _ => trivial
  | _ :: _, _ :: _, h => ⟨argIs_shows h.1, argsAre_shows h.2⟩
  | [], _ :: _, h => h.elim
  | _ :: _, [], h => h.elim

theorem argsAre_refs {code : List Nat} {ks : List K} : ∀ {os : List Nat} {rs : List (Ref K)}, ArgsAre code ks os rs →
    ∃ ds, argRefs code os = some ds ∧ RefsAre ks ds rs
  | [], [], _ => ⟨[], rfl, trivial⟩
  | o :: os, r :: rs, h => by
    obtain ⟨d, _, h2, h3⟩ := h.1
    obtain ⟨ds, g1, g2⟩ := argsAre_refs h.2
    exact ⟨d :: ds, by simp [argRefs, h2, g1], h3, g2⟩
  | [], _ :: _, h => h.elim
  | _ :: _, [], h => h.elim

theorem formInfo_head {h : Header} {hd : Head} (e : h.head = hd.norm) :
    (formInfo h).upd = updates hd ∧ (formInfo h).arity = params hd ∧ (formInfo h).body = h.body := by
  unfold Header.head at e
  unfold formInfo
  split at e
  · rename_i h1; rw [if_pos h1]
    cases hd with
    | lambda b s => cases b <;> simp [Head.norm] at e
    | thunk => simp [updates, params]
    | value => simp [Head.norm] at e
  · rename_i h1; rw [if_neg h1]
    split at e
    · rename_i h2; rw [if_pos h2]
      cases hd with
      | lambda b s => cases b with
        | zero => simp [Head.norm] at e
        | succ b => simp [Head.norm] at e; simp [updates, params, e]
      | thunk => simp [Head.norm] at e
      | value => simp [Head.norm] at e
    · rename_i h2; rw [if_neg h2]
      cases hd with
      | lambda b s => cases b with
        | zero => simp [updates, params]
        | succ b => simp [Head.norm] at e
      | thunk => simp [Head.norm] at e
      | value => simp [updates, params]

theorem select_eq : @select Nat = selectEntry := rfl

mutual
theorem reads_shows {code : List Nat} {ks : List K} : (t : Syn K) → (o : Nat) → Reads code ks o t →
    Shows (byteEngine code) ks o t
  | .atom r, o, h => by rw [Reads] at h; rw [Shows]; exact argIs_shows h
  | .case scr bs fb, o, h => by
    rw [Reads] at h; rw [Shows]
    obtain ⟨so, lo, table, fo, h1, h2, h3, h4, h5⟩ := h
    exact ⟨so, lo, table, fo, by simp [byteEngine, h1, ofNode], reads_shows scr so h2, h3, readsBrs_shows bs _ h4,
      readsFb_shows fb fo h5⟩
  | .cons tag args, o, h => by
    rw [Reads] at h; rw [Shows]
    obtain ⟨os, h1, h2⟩ := h
    obtain ⟨ds, g1, g2⟩ := argsAre_refs h2
    exact ⟨ds, by simp [byteEngine, h1, ofNode, g1], g2⟩
  | .app f args eager, o, h => by
    rw [Reads] at h; rw [Shows]
    obtain ⟨d, os, h1, h2, h3⟩ := h
    exact ⟨d, os, by simp [byteEngine, h1, ofNode], h2, argsAre_shows h3⟩
  | .dapp smid f args eager, o, h => by
    rw [Reads] at h; rw [Shows]
    obtain ⟨d, os, h1, h2, h3⟩ := h
    exact ⟨d, os, by simp [byteEngine, h1, ofNode], h2, argsAre_shows h3⟩
  | .bif i args, o, h => by
    rw [Reads] at h; rw [Shows]
    obtain ⟨os, h1, h2⟩ := h
    obtain ⟨ds, g1, g2⟩ := argsAre_refs h2
    exact ⟨ds, by simp [byteEngine, h1, ofNode, g1], g2⟩
  | .let_ fs body, o, h => by
    rw [Reads] at h; rw [Shows]
    obtain ⟨hs, bo, h1, h2, h3⟩ := h
    exact ⟨hs.map formInfo, bo, by simp [byteEngine, h1, ofNode], readsForms_shows fs hs h2, reads_shows body bo h3⟩
  | .letrec fs body, o, h => by
    rw [Reads] at h; rw [Shows]
    obtain ⟨hs, bo, h1, h2, h3⟩ := h
    exact ⟨hs.map formInfo, bo, by simp [byteEngine, h1, ofNode], readsForms_shows fs hs h2, reads_shows body bo h3⟩
  | .ann smid body, o, h => by
    rw [Reads] at h; rw [Shows]
    obtain ⟨bo, h1, h2⟩ := h
    exact .inl ⟨bo, by simp [byteEngine, h1, ofNode], reads_shows body bo h2⟩
  | .metaOf m b, o, h => by
    rw [Reads] at h; rw [Shows]
    obtain ⟨mo, bo, h1, ⟨dm, _, h2, h3⟩, ⟨db, _, h4, h5⟩⟩ := h
    exact ⟨dm, db, by simp [byteEngine, h1, ofNode, h2, h4], h3, h5⟩
  | .demeta scr handler orElse, o, h => by
    rw [Reads] at h; rw [Shows]
    obtain ⟨so, ho, oo, h1, h2, h3, h4⟩ := h
    exact ⟨so, ho, oo, by simp [byteEngine, h1, ofNode], reads_shows scr so h2, reads_shows handler ho h3,
      reads_shows orElse oo h4⟩
  | .seq scr body, o, h => by
    rw [Reads] at h; rw [Shows]
    obtain ⟨so, bo, h1, h2, h3⟩ := h
    exact ⟨so, bo, by simp [byteEngine, h1, ofNode], reads_shows scr so h2, reads_shows body bo h3⟩
  | .lookup smid key obj dflt, o, h => by
    rw [Reads] at h; rw [Shows]
    obtain ⟨dk, d, oo, h1, h2, h3, h4⟩ := h
    exact ⟨dk, d, oo, by simp [byteEngine, h1, ofNode], h2, h3, argIs_shows h4⟩
  | .fused id left right, o, h => by
    rw [Reads] at h; rw [Shows]
    obtain ⟨lo, ro, h1, h2, h3⟩ := h
    exact ⟨lo, ro, by simp [byteEngine, h1, ofNode], argIs_shows h2, argIs_shows h3⟩
  | .hole, o, h => by
    rw [Reads] at h; rw [Shows]
    simp [byteEngine, h, ofNode]
theorem readsBrs_shows {code : List Nat} {ks : List K} : (bs : Brs K) → (sel : Nat → Option Nat) → ReadsBrs code ks sel bs →
    ShowsBrs (byteEngine code) ks sel bs
  | .nil, _, _ => by rw [ShowsBrs]; trivial
  | .cons tag body bs, sel, h => by
    rw [ReadsBrs] at h; rw [ShowsBrs]
    refine ⟨fun hn => ?_, readsBrs_shows bs sel h.2⟩
    obtain ⟨o, h1, h2⟩ := h.1 hn
    exact ⟨o, h1, reads_shows body o h2⟩
theorem readsFb_shows {code : List Nat} {ks : List K} : (fb : Fb K) → (fo : Option Nat) → ReadsFb code ks fo fb →
    ShowsFb (byteEngine code) ks fo fb
  | .none, none, _ => by rw [ShowsFb]; trivial
  | .some b, some o, h => by rw [ReadsFb] at h; rw [ShowsFb]; exact reads_shows b o h
  | .none, some o, h => by rw [ReadsFb] at h; exact h.elim; all_goals simp
  | .some b, none, h => by rw [ReadsFb] at h; exact h.elim; all_goals simp
theorem readsForms_shows {code : List Nat} {ks : List K} : (fs : Forms K) → (hs : List Header) → ReadsForms code ks hs fs →
    ShowsForms (byteEngine code) ks (hs.map formInfo) fs
  | .nil, [], _ => by rw [List.map_nil, ShowsForms]; trivial
  | .cons hd body fs, h :: hs, e => by
    rw [ReadsForms] at e; rw [List.map_cons, ShowsForms]
    obtain ⟨g1, g2, g3⟩ := formInfo_head e.1
    exact ⟨g1, g2, by rw [g3]; exact reads_shows body h.body e.2.1, readsForms_shows fs hs e.2.2⟩
  | .nil, h :: hs, e => by rw [ReadsForms] at e; exact e.elim; all_goals simp
  | .cons hd body fs, [], e => by rw [ReadsForms] at e; exact e.elim; all_goals simp
end

/-! ## Children -/

/-- The offsets a node leads to that get an ordinal. -/
def kids : Node → List Nat
  | .case scr _ table fb => scr :: (table.filterMap id ++ fb.toList)
  | .app _ _ args => args
  | .dapp _ _ _ args => args
  | .let_ hs body => hs.map (·.body) ++ [body]
  | .letrec hs body => hs.map (·.body) ++ [body]
  | .ann _ body => [body]
  | .demeta s h o => [s, h, o]
  | .seq s b => [s, b]
  | .lookup _ _ _ o => [o]
  | .fused _ l r => [l, r]
  | _ => []

/-- An offset at which some tree can be read. -/
def Good (code : List Nat) (ks : List K) (o : Nat) : Prop := ∃ t : Syn K, Reads code ks o t

theorem argIs_good {code : List Nat} {ks : List K} {o : Nat} {r : Ref K} (h : ArgIs code ks o r) : Good code ks o :=
  ⟨.atom r, by rw [Reads]; exact h⟩

theorem argsAre_good {code : List Nat} {ks : List K} : ∀ {os : List Nat} {rs : List (Ref K)}, ArgsAre code ks os rs →
    ∀ o ∈ os, Good code ks o
  | [], _, _ => by simp
  | o :: os, r :: rs, h => by
    intro x hx
    rcases List.mem_cons.1 hx with rfl | hx
    · exact argIs_good h.1
    · exact argsAre_good h.2 x hx
  | _ :: _, [], h => h.elim

theorem brs_last {code : List Nat} {ks : List K} {sel : Nat → Option Nat} : (bs : Brs K) → ReadsBrs code ks sel bs →
    ∀ tag, bs.has tag → ∃ o, sel tag = some o ∧ Good code ks o
  | .nil, _, _, h => by rw [Brs.has] at h; exact h.elim
  | .cons t body bs, h, tag, hh => by
    rw [ReadsBrs] at h
    rw [Brs.has] at hh
    by_cases hb : bs.has tag
    · exact brs_last bs h.2 tag hb
    · rcases hh with rfl | hh
      · obtain ⟨o, h1, h2⟩ := h.1 hb
        exact ⟨o, h1, body, h2⟩
      · exact (hb hh).elim

theorem forms_good {code : List Nat} {ks : List K} : (hs : List Header) → (fs : Forms K) → ReadsForms code ks hs fs →
    ∀ o ∈ hs.map (·.body), Good code ks o
  | [], _, _ => by simp
  | h :: hs, .cons hd body fs, e => by
    rw [ReadsForms] at e
    intro o ho
    rcases List.mem_cons.1 ho with rfl | ho
    · exact ⟨body, e.2.1⟩
    · exact forms_good hs fs e.2.2 o ho
  | h :: hs, .nil, e => by rw [ReadsForms] at e; exact e.elim; all_goals simp

theorem table_good {code : List Nat} {ks : List K} {lo : Nat} {table : List (Option Nat)} {bs : Brs K}
    (h : ∀ tag, selectEntry lo table tag ≠ none → bs.has tag) (hb : ReadsBrs code ks (selectEntry lo table) bs) :
    ∀ o ∈ table.filterMap id, Good code ks o := by
  intro o ho
  rw [List.mem_filterMap] at ho
  obtain ⟨x, hx, e⟩ := ho
  cases x with
  | none => cases e
  | some y =>
    cases e
    obtain ⟨i, hi⟩ := List.mem_iff_getElem?.1 hx
    have hs : selectEntry lo table (lo + i) = some o := by
      unfold selectEntry
      rw [if_neg (by omega), Nat.add_sub_cancel_left, hi]; rfl
    obtain ⟨o', h1, h2⟩ := brs_last bs hb (lo + i) (h _ (by rw [hs]; simp))
    rw [hs] at h1; cases h1; exact h2

/-- What a readable offset leads to is readable, and its operands are there. -/
theorem good_node {code : List Nat} {ks : List K} {o : Nat} (h : Good code ks o) :
    ∃ n v, readNode code o = some n ∧ ofNode code n = some v ∧ ∀ c ∈ kids n, Good code ks c := by
  obtain ⟨t, h⟩ := h
  cases t with
  | atom r =>
    rw [Reads] at h
    obtain ⟨d, h1, _, _⟩ := h
    exact ⟨_, _, h1, rfl, by simp [kids]⟩
  | case scr bs fb =>
    rw [Reads] at h
    obtain ⟨so, lo, table, fo, h1, h2, h3, h4, h5⟩ := h
    refine ⟨_, _, h1, rfl, ?_⟩
    intro c hc
    simp only [kids, List.mem_cons, List.mem_append, Option.mem_toList] at hc
    rcases hc with rfl | hc | hc
    · exact ⟨scr, h2⟩
    · exact table_good h3 h4 c hc
    · cases fb with
      | none => cases fo with
        | none => cases hc
        | some x => rw [ReadsFb] at h5; exact h5.elim; all_goals simp
      | some b => cases fo with
        | none => cases hc
        | some x => rw [ReadsFb] at h5; cases hc; exact ⟨b, h5⟩
  | cons tag args =>
    rw [Reads] at h
    obtain ⟨os, h1, h2⟩ := h
    obtain ⟨ds, g1, _⟩ := argsAre_refs h2
    exact ⟨_, _, h1, by simp [ofNode, g1]; rfl, by simp [kids]⟩
  | app f args eager =>
    rw [Reads] at h
    obtain ⟨d, os, h1, h2, h3⟩ := h
    exact ⟨_, _, h1, rfl, argsAre_good h3⟩
  | dapp smid f args eager =>
    rw [Reads] at h
    obtain ⟨d, os, h1, h2, h3⟩ := h
    exact ⟨_, _, h1, rfl, argsAre_good h3⟩
  | «bif» i args =>
    rw [Reads] at h
    obtain ⟨os, h1, h2⟩ := h
    obtain ⟨ds, g1, _⟩ := argsAre_refs h2
    exact ⟨_, _, h1, by simp [ofNode, g1]; rfl, by simp [kids]⟩
  | let_ fs body =>
    rw [Reads] at h
    obtain ⟨hs, bo, h1, h2, h3⟩ := h
    refine ⟨_, _, h1, rfl, fun c hc => ?_⟩
    rcases List.mem_append.1 hc with hc | hc
    · exact forms_good hs fs h2 c hc
    · cases List.mem_singleton.1 hc; exact ⟨_, h3⟩
  | letrec fs body =>
    rw [Reads] at h
    obtain ⟨hs, bo, h1, h2, h3⟩ := h
    refine ⟨_, _, h1, rfl, fun c hc => ?_⟩
    rcases List.mem_append.1 hc with hc | hc
    · exact forms_good hs fs h2 c hc
    · cases List.mem_singleton.1 hc; exact ⟨_, h3⟩
  | ann smid body =>
    rw [Reads] at h
    obtain ⟨bo, h1, h2⟩ := h
    refine ⟨_, _, h1, rfl, fun c hc => ?_⟩
    cases List.mem_singleton.1 hc; exact ⟨_, h2⟩
  | metaOf m b =>
    rw [Reads] at h
    obtain ⟨mo, bo, h1, ⟨dm, _, h2, h3⟩, ⟨db, _, h4, h5⟩⟩ := h
    exact ⟨_, _, h1, by simp [ofNode, h2, h4]; rfl, by simp [kids]⟩
  | demeta scr handler orElse =>
    rw [Reads] at h
    obtain ⟨so, ho, oo, h1, h2, h3, h4⟩ := h
    refine ⟨_, _, h1, rfl, fun c hc => ?_⟩
    simp only [kids, List.mem_cons, List.not_mem_nil, or_false] at hc
    rcases hc with rfl | rfl | rfl
    · exact ⟨_, h2⟩
    · exact ⟨_, h3⟩
    · exact ⟨_, h4⟩
  | seq scr body =>
    rw [Reads] at h
    obtain ⟨so, bo, h1, h2, h3⟩ := h
    refine ⟨_, _, h1, rfl, fun c hc => ?_⟩
    simp only [kids, List.mem_cons, List.not_mem_nil, or_false] at hc
    rcases hc with rfl | rfl
    · exact ⟨_, h2⟩
    · exact ⟨_, h3⟩
  | lookup smid key obj dflt =>
    rw [Reads] at h
    obtain ⟨dk, d, oo, h1, h2, h3, h4⟩ := h
    refine ⟨_, _, h1, rfl, fun c hc => ?_⟩
    cases List.mem_singleton.1 hc; exact argIs_good h4
  | fused id left right =>
    rw [Reads] at h
    obtain ⟨lo, ro, h1, h2, h3⟩ := h
    refine ⟨_, _, h1, rfl, fun c hc => ?_⟩
    simp only [kids, List.mem_cons, List.not_mem_nil, or_false] at hc
    rcases hc with rfl | rfl
    · exact argIs_good h2
    · exact argIs_good h3
  | hole =>
    rw [Reads] at h
    exact ⟨_, _, h, rfl, by simp [kids]⟩

/-! ## Annotations -/

/-- Following annotations from an offset ends, after `n` of them, at a node that is none. -/
inductive Peels (code : List Nat) : Nat → Nat → Nat → Prop
  | here {o : Nat} {n : Node} (h : readNode code o = some n) (hn : ∀ s b, n ≠ .ann s b) : Peels code 0 o o
  | ann {n o b c s : Nat} (h : readNode code o = some (.ann s b)) (hp : Peels code n b c) : Peels code (n + 1) o c

theorem peels_of_reads {code : List Nat} {ks : List K} : (t : Syn K) → (o : Nat) → Reads code ks o t →
    ∃ n c, Peels code n o c
  | .ann s b, o, h => by
    rw [Reads] at h
    obtain ⟨bo, h1, h2⟩ := h
    obtain ⟨n, c, hp⟩ := peels_of_reads b bo h2
    exact ⟨n + 1, c, .ann h1 hp⟩
  | .atom r, o, h => by rw [Reads] at h; obtain ⟨d, h1, _⟩ := h; exact ⟨0, o, .here h1 (by simp)⟩
  | .case _ _ _, o, h => by rw [Reads] at h; obtain ⟨_, _, _, _, h1, _⟩ := h; exact ⟨0, o, .here h1 (by simp)⟩
  | .cons _ _, o, h => by rw [Reads] at h; obtain ⟨_, h1, _⟩ := h; exact ⟨0, o, .here h1 (by simp)⟩
  | .app _ _ _, o, h => by rw [Reads] at h; obtain ⟨_, _, h1, _⟩ := h; exact ⟨0, o, .here h1 (by simp)⟩
  | .dapp _ _ _ _, o, h => by rw [Reads] at h; obtain ⟨_, _, h1, _⟩ := h; exact ⟨0, o, .here h1 (by simp)⟩
  | .bif _ _, o, h => by rw [Reads] at h; obtain ⟨_, h1, _⟩ := h; exact ⟨0, o, .here h1 (by simp)⟩
  | .let_ _ _, o, h => by rw [Reads] at h; obtain ⟨_, _, h1, _⟩ := h; exact ⟨0, o, .here h1 (by simp)⟩
  | .letrec _ _, o, h => by rw [Reads] at h; obtain ⟨_, _, h1, _⟩ := h; exact ⟨0, o, .here h1 (by simp)⟩
  | .metaOf _ _, o, h => by rw [Reads] at h; obtain ⟨_, _, h1, _⟩ := h; exact ⟨0, o, .here h1 (by simp)⟩
  | .demeta _ _ _, o, h => by rw [Reads] at h; obtain ⟨_, _, _, h1, _⟩ := h; exact ⟨0, o, .here h1 (by simp)⟩
  | .seq _ _, o, h => by rw [Reads] at h; obtain ⟨_, _, h1, _⟩ := h; exact ⟨0, o, .here h1 (by simp)⟩
  | .lookup _ _ _ _, o, h => by rw [Reads] at h; obtain ⟨_, _, _, h1, _⟩ := h; exact ⟨0, o, .here h1 (by simp)⟩
  | .fused _ _ _, o, h => by rw [Reads] at h; obtain ⟨_, _, h1, _⟩ := h; exact ⟨0, o, .here h1 (by simp)⟩
  | .hole, o, h => by rw [Reads] at h; exact ⟨0, o, .here h (by simp)⟩

theorem Peels.core {code : List Nat} {n o c : Nat} (h : Peels code n o c) : Peels code 0 c c := by
  induction h with
  | here h hn => exact .here h hn
  | ann _ _ ih => exact ih

theorem Peels.unique {code : List Nat} {n o c : Nat} (h : Peels code n o c) : ∀ {n' c'}, Peels code n' o c' → n = n' ∧ c = c' := by
  induction h with
  | here h hn =>
    intro n' c' h'
    cases h' with
    | here _ _ => exact ⟨rfl, rfl⟩
    | ann h' _ => rw [h] at h'; cases h'; exact (hn _ _ rfl).elim
  | ann h _ ih =>
    intro n' c' h'
    cases h' with
    | here h' hn => rw [h] at h'; cases h'; exact (hn _ _ rfl).elim
    | ann h' hp =>
      rw [h] at h'; cases h'
      obtain ⟨e1, e2⟩ := ih hp
      exact ⟨by rw [e1], e2⟩

end Verif.Eng
