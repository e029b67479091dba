import Verif.ArgsModel

/-!
# What the arguments of a command say

Which lists of arguments are made of known options, values and other arguments, and what they say.
-/

namespace Verif.Args.Spec

open Verif.Args

variable {J : Type}

/-- No option is there twice, and no two options have the same short name. -/
structure Good (defs : List (Opt J)) : Prop where
  keys : (defs.map Opt.key).Nodup
  shorts : ∀ o ∈ defs, ∀ o' ∈ defs, ∀ c, o.short = some c → o'.short = some c → o = o'

/-- The value that a text gives to an option: JSON if the default is a number. -/
def value (json : Str → Option J) (o : Opt J) (s : Str) : Val J :=
  if o.num then (json s).elim .bad .data else .text s

/-- Short names of flags, and the keys of these flags. -/
inductive Flags (defs : List (Opt J)) : List Char → List Str → Prop
  | nil : Flags defs [] []
  | cons {o c cs ks} : o ∈ defs → o.short = some c → o.flag = true → Flags defs cs ks →
      Flags defs (c :: cs) (o.key :: ks)

/-- The name of an option can be written after `--`, and is not that of help. -/
def Plain (k : Str) : Prop := '=' ∉ k ∧ k ≠ "help".toList

/-- Arguments, the settings they make one after the other, and the arguments that are no options. Of
`--key=value` what counts is what is before the next `=` (see `eq_cut`). -/
inductive Line (json : Str → Option J) (defs : List (Opt J)) :
    List Str → List (Str × Val J) → List Str → Prop
  | nil : Line json defs [] [] []
  | pos {a as ss ps} : a.head? ≠ some '-' → Line json defs as ss ps → Line json defs (a :: as) ss (a :: ps)
  | flag {o as ss ps} : o ∈ defs → o.flag = true → Plain o.key → Line json defs as ss ps →
      Line json defs (('-' :: '-' :: o.key) :: as) ((o.key, .on) :: ss) ps
  | eq {o v as ss ps} : o ∈ defs → '=' ∉ o.key → Line json defs as ss ps →
      Line json defs (('-' :: '-' :: (o.key ++ '=' :: v)) :: as)
        ((o.key, value json o (v.takeWhile (· != '='))) :: ss) ps
  | sep {o v as ss ps} : o ∈ defs → o.flag = false → Plain o.key → Line json defs as ss ps →
      Line json defs (('-' :: '-' :: o.key) :: v :: as) ((o.key, value json o v) :: ss) ps
  | flags {cs ks as ss ps} : Flags defs cs ks → cs.head? ≠ some '-' → Line json defs as ss ps →
      Line json defs (('-' :: cs) :: as) (ks.map (fun k => (k, .on)) ++ ss) ps
  | shortAtt {cs ks o c v as ss ps} : Flags defs cs ks → o ∈ defs → o.short = some c → o.flag = false →
      v ≠ [] → (cs ++ [c]).head? ≠ some '-' → Line json defs as ss ps →
      Line json defs (('-' :: (cs ++ c :: v)) :: as)
        (ks.map (fun k => (k, .on)) ++ (o.key, value json o v) :: ss) ps
  | shortSep {cs ks o c v as ss ps} : Flags defs cs ks → o ∈ defs → o.short = some c → o.flag = false →
      (cs ++ [c]).head? ≠ some '-' → Line json defs as ss ps →
      Line json defs (('-' :: (cs ++ [c])) :: v :: as)
        (ks.map (fun k => (k, .on)) ++ (o.key, value json o v) :: ss) ps

/-- What the arguments begin with is wrong. -/
inductive Wrong (defs : List (Opt J)) : List Str → Err → Prop
  | help {as} : Wrong defs ("--help".toList :: as) .help
  | unknown {k as} : k ≠ "help".toList → '=' ∉ k → (∀ o ∈ defs, o.key ≠ k) →
      Wrong defs (('-' :: '-' :: k) :: as) (.unknownLong k)
  | unknownEq {k v as} : '=' ∉ k → (∀ o ∈ defs, o.key ≠ k) →
      Wrong defs (('-' :: '-' :: (k ++ '=' :: v)) :: as) (.unknownLong (k ++ '=' :: v))
  | unknownShort {cs ks c v as} : Flags defs cs ks → (∀ o ∈ defs, o.short ≠ some c) →
      (cs ++ [c]).head? ≠ some '-' → Wrong defs (('-' :: (cs ++ c :: v)) :: as) (.unknownShort c)
  | needs {o} : o ∈ defs → o.flag = false → Plain o.key →
      Wrong defs [('-' :: '-' :: o.key)] (.needsValue o.key)
  | needsShort {cs ks o c} : Flags defs cs ks → o ∈ defs → o.short = some c → o.flag = false →
      (cs ++ [c]).head? ≠ some '-' → Wrong defs [('-' :: (cs ++ [c]))] (.needsValue o.key)

/-- The value set last for the key, or the default. -/
def last (ss : List (Str × Val J)) (k : Str) (d : Val J) : Val J :=
  (((ss.filter (fun s => s.1 == k)).getLast?).map Prod.snd).getD d

def argsKey : Str := "args".toList

/-- The defaults with what was set last, and the other arguments as `args`. -/
def result (defs : List (Opt J)) (ss : List (Str × Val J)) (ps : List Str) : List (Str × Val J) :=
  defs.map (fun o =>
    (o.key, if o.key = argsKey then .list ps else last ss o.key (.dflt o.value)))
  ++ if argsKey ∈ defs.map Opt.key then [] else [(argsKey, .list ps)]

end Verif.Args.Spec
