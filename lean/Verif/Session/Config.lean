import Verif.StoreBlockProofs
import Verif.Session.Registry
import Mathlib.Data.Nat.Digits.Defs

/-!
# `.adolcrc`: the configuration of a new tape

`ValueTape::readConfigFile` (valuetape.cpp:678-804), run by the constructor of every tape (valuetape.h:91-92).

Simplifications.  Characters are not bytes; the file contains no NUL.  The locale is "C".  `unsigned long` and `size_t` have 64
bits.  Whether a path is an existing directory (`stat`, `S_ISDIR`) is a parameter.  Messages are not modelled.
-/
set_option linter.all false
namespace Verif.Conf
open Verif.Reg Verif.StoreBlock

abbrev Str := List Char

/-- `fgets(inputLine, n + 1, file)`: at most `n` characters, up to the first newline; and the rest of the file. -/
def fgets : Nat → Str → Str × Str
  | 0, cs => ([], cs)
  | _ + 1, [] => ([], [])
  | n + 1, c :: cs => if c = '\n' then ([c], cs) else ((c :: (fgets n cs).1), (fgets n cs).2)

theorem fgets_rest (n : Nat) : ∀ cs : Str, (fgets n cs).1 ++ (fgets n cs).2 = cs := by
  induction n with
  | zero => intro cs; rfl
  | succ n ih =>
    intro cs
    cases cs with
    | nil => rfl
    | cons c cs =>
      rw [fgets]; split
      · rfl
      · simp [ih cs]

theorem fgets_cons (n : Nat) (c : Char) (cs : Str) : (fgets (n + 1) (c :: cs)).2.length < (c :: cs).length := by
  have := congrArg List.length (fgets_rest n cs)
  rw [fgets]; split
  · simp
  · simp only [List.length_append] at this; simp only [List.length_cons]; omega

/-- `ADOLC_LINE_LENGTH` (valuetape.cpp:677). -/
def lineLength : Nat := 100

/-- The strings the loop at valuetape.cpp:702 reads. -/
def chunks : Str → List Str
  | [] => []
  | c :: cs => (fgets lineLength (c :: cs)).1 :: chunks (fgets lineLength (c :: cs)).2
termination_by cs => cs.length
decreasing_by exact fgets_cons 99 c cs

/-- `strchr(p, '"')`: what is before the first quotation mark and what is behind it. -/
def cut : Str → Option (Str × Str)
  | [] => none
  | c :: cs => if c = '"' then some ([], cs) else (cut cs).map fun p => (c :: p.1, p.2)

/-- `isspace`. -/
def space (c : Char) : Bool := c = ' ' || c = '\t' || c = '\n' || c = Char.ofNat 11 || c = Char.ofNat 12 || c = '\r'

/-- The digit a character stands for, if it is one in the base `b` (at most 36). -/
def digitVal (b : Nat) (c : Char) : Option Nat :=
  let v := if '0' ≤ c ∧ c ≤ '9' then c.toNat - 48
    else if 'a' ≤ c ∧ c ≤ 'z' then c.toNat - 87 else if 'A' ≤ c ∧ c ≤ 'Z' then c.toNat - 55 else 36
  if v < b then some v else none

/-- The digits at the beginning of a text. -/
def leading (b : Nat) : Str → List Nat
  | [] => []
  | c :: cs => match digitVal b c with
    | none => []
    | some d => d :: leading b cs

/-- The number with the given digits, or `none` if there are none. -/
def digitsVal (b : Nat) (ds : List Nat) : Option Nat := if ds.isEmpty then none else some (ds.foldl (fun n d => n * b + d) 0)

/-- After the sign: `strtoul` accepts `0x` in base 16 if a digit follows. -/
def unsignedVal (b : Nat) : Str → Option Nat
  | '0' :: 'x' :: cs => if b = 16 ∧ (leading b cs).isEmpty = false then digitsVal b (leading b cs) else digitsVal b (leading b ('0' :: 'x' :: cs))
  | '0' :: 'X' :: cs => if b = 16 ∧ (leading b cs).isEmpty = false then digitsVal b (leading b cs) else digitsVal b (leading b ('0' :: 'X' :: cs))
  | cs => digitsVal b (leading b cs)

/-- After the spaces: `strtoul` accepts a sign; a negative number is negated as `unsigned long`. -/
def signedVal (b : Nat) : Str → Option Nat
  | '-' :: cs => (unsignedVal b cs).map fun n => if n < 2 ^ 64 then (2 ^ 64 - n) % 2 ^ 64 else 2 ^ 64 - 1
  | '+' :: cs => (unsignedVal b cs).map fun n => min n (2 ^ 64 - 1)
  | cs => (unsignedVal b cs).map fun n => min n (2 ^ 64 - 1)

/-- `strtoul(start, &end, base)` of the C library: `none` if `end == start`. -/
def strtoul (b : Nat) (start : Str) : Option Nat := signedVal b (start.dropWhile space)

/-- valuetape.cpp:728-738: where the number starts, and its base. -/
def number : Str → Option Nat
  | '0' :: 'x' :: s => strtoul 16 s
  | '0' :: 'X' :: s => strtoul 16 s
  | '0' :: s => strtoul 8 s
  | s => strtoul 10 s

/-- What the file configures: four buffer sizes, the file names without their endings, `initialStoreSize`, and the tape's
store of live variables. -/
structure Conf where
  obuf : Nat
  lbuf : Nat
  vbuf : Nat
  tbuf : Nat
  names : Kind → Str
  live : Nat
  store : SM Int

/-- valuetape.cpp:687-698, usrparms.h:24-30, dvlparms.h:28-33; the store is fresh (globaltapevarscl.h:9-19). -/
def Conf.init (gc : Nat → Nat → Bool) : Conf :=
  ⟨524288, 524288, 524288, 524288, fun k => ['.'] ++ '/' :: base k, 0, SM.init gc⟩

/-- `checkInitialStoreSize` (globaltapevarscl.h:30-33) after `initialStoreSize(n)`. -/
def Conf.initLive (c : Conf) (n : Nat) : Conf :=
  { c with live := n, store := if initialSize < n then c.store.grow n else c.store }

def nOBUF : Str := ['O', 'B', 'U', 'F', 'S', 'I', 'Z', 'E']
def nLBUF : Str := ['L', 'B', 'U', 'F', 'S', 'I', 'Z', 'E']
def nVBUF : Str := ['V', 'B', 'U', 'F', 'S', 'I', 'Z', 'E']
def nTBUF : Str := ['T', 'B', 'U', 'F', 'S', 'I', 'Z', 'E']
def nLIVE : Str := ['I', 'N', 'I', 'T', 'L', 'I', 'V', 'E']
def nDIR : Str := ['T', 'A', 'P', 'E', '_', 'D', 'I', 'R']

/-- valuetape.cpp:740-797: the effect of a line with four quotation marks; `val` is between the last two, `behind` begins
behind the third. -/
def Conf.apply (isDir : Str → Bool) (name val behind : Str) (c : Conf) : Conf :=
  match number behind with
  | none => if name = nDIR then (if isDir val then { c with names := fun k => val ++ '/' :: base k } else c) else c
  | some n =>
    if name = nOBUF then { c with obuf := n }
    else if name = nLBUF then { c with lbuf := n }
    else if name = nVBUF then { c with vbuf := n }
    else if name = nTBUF then { c with tbuf := n }
    else if name = nLIVE then c.initLive n
    else c

/-- valuetape.cpp:711-727: the four quotation marks. -/
def Conf.line (isDir : Str → Bool) (l : Str) (c : Conf) : Conf :=
  match cut l with
  | none => c
  | some (_, r1) => match cut r1 with
    | none => c
    | some (name, r2) => match cut r2 with
      | none => c
      | some (_, r3) => match cut r3 with
        | none => c
        | some (val, _) => c.apply isDir name val r3

/-- The loop (valuetape.cpp:702-799), which a string of 100 characters without a newline at the end leaves. -/
def Conf.loop (isDir : Str → Bool) : List Str → Conf → Conf
  | [], c => c
  | l :: ls, c => if l.length = lineLength ∧ l.getLast? ≠ some '\n' then c else Conf.loop isDir ls (c.line isDir l)

/-- `readConfigFile` (valuetape.cpp:678-804); `none`: there is no file `.adolcrc`. -/
def readConfig (gc : Nat → Nat → Bool) (isDir : Str → Bool) : Option Str → Conf
  | none => Conf.init gc
  | some cs => Conf.loop isDir (chunks cs) (Conf.init gc)

/-- `initNewTape` (valuetape.cpp:81-84): the buffer sizes `tapestats` reports (operations, locations, values, Taylor stack). -/
def Conf.bufferStats (c : Conf) : Nat × Nat × Nat × Nat := (c.obuf, c.lbuf, c.vbuf, c.tbuf)

/-- `createFileName` (persistanttapeinfos.cpp:157-170) with the configured names. -/
def Conf.fileName (c : Conf) (k : Kind) (ix : Nat) (id : Int) : Str :=
  c.names k ++ ['t', 'h', 'r', 'e', 'a', 'd', '-'] ++ dec ix ++ ['_'] ++ ['t', 'a', 'p', 'e', '-'] ++ decI id ++ ['.', 't', 'a', 'p']

/-! ### Lines -/

theorem fgets_line : ∀ (n : Nat) (l rest : Str), '\n' ∉ l → l.length < n → fgets n (l ++ '\n' :: rest) = (l ++ ['\n'], rest)
  | 0, _, _, _, h => by omega
  | n + 1, [], rest, _, _ => by simp [fgets]
  | n + 1, c :: l, rest, hn, h => by
    have hc : c ≠ '\n' := fun e => hn (by simp [e])
    have ih := fgets_line n l rest (fun hh => hn (by simp [hh])) (by simpa using h)
    rw [List.cons_append, fgets, if_neg hc, ih]; rfl

theorem fgets_short : ∀ (n : Nat) (l : Str), '\n' ∉ l → l.length < n → fgets n l = (l, [])
  | 0, _, _, h => by omega
  | n + 1, [], _, _ => by simp [fgets]
  | n + 1, c :: l, hn, h => by
    have hc : c ≠ '\n' := fun e => hn (by simp [e])
    have ih := fgets_short n l (fun hh => hn (by simp [hh])) (by simpa using h)
    rw [fgets, if_neg hc, ih]

theorem fgets_long : ∀ (n : Nat) (l rest : Str), '\n' ∉ l → l.length = n → fgets n (l ++ rest) = (l, rest)
  | 0, [], rest, _, _ => by simp [fgets]
  | 0, _ :: _, _, _, h => by simp at h
  | n + 1, [], rest, _, h => by simp at h
  | n + 1, c :: l, rest, hn, h => by
    have hc : c ≠ '\n' := fun e => hn (by simp [e])
    have ih := fgets_long n l rest (fun hh => hn (by simp [hh])) (by simpa using h)
    rw [List.cons_append, fgets, if_neg hc, ih]

theorem chunks_eq (cs : Str) (h : cs ≠ []) : chunks cs = (fgets lineLength cs).1 :: chunks (fgets lineLength cs).2 := by
  cases cs with
  | nil => exact absurd rfl h
  | cons c cs => rw [chunks]

theorem chunks_line (l rest : Str) (hn : '\n' ∉ l) (h : l.length < lineLength) : chunks (l ++ '\n' :: rest) = (l ++ ['\n']) :: chunks rest := by
  rw [chunks_eq _ (by simp), fgets_line _ _ _ hn h]

theorem chunks_last (l : Str) (hn : '\n' ∉ l) (h : l.length < lineLength) : chunks l = if l = [] then [] else [l] := by
  split
  · rename_i e; subst e; rw [chunks]
  · rename_i e; rw [chunks_eq _ e, fgets_short _ _ hn h, chunks]

theorem loop_lines (isDir : Str → Bool) (rest : Str) : ∀ (ls : List Str) (c : Conf), (∀ l ∈ ls, '\n' ∉ l ∧ l.length < lineLength) →
    Conf.loop isDir (chunks ((ls.flatMap fun l => l ++ ['\n']) ++ rest)) c =
      Conf.loop isDir (chunks rest) (ls.foldl (fun c l => c.line isDir (l ++ ['\n'])) c)
  | [], c, _ => rfl
  | l :: ls, c, h => by
    have h1 := h l (by simp)
    have e : (((l :: ls).flatMap fun l => l ++ ['\n']) ++ rest) = l ++ '\n' :: ((ls.flatMap fun l => l ++ ['\n']) ++ rest) := by simp
    rw [e, chunks_line _ _ h1.1 h1.2, Conf.loop, if_neg (by simp), loop_lines isDir rest ls _ (fun x hx => h x (by simp [hx]))]
    rfl

theorem loop_last (isDir : Str → Bool) (l : Str) (hn : '\n' ∉ l) (h : l.length < lineLength) (c : Conf) :
    Conf.loop isDir (chunks l) c = c.line isDir l := by
  rw [chunks_last _ hn h]
  split
  · rename_i e; subst e; rfl
  · rw [Conf.loop, if_neg (by omega)]; rfl

theorem cut_mid : ∀ (a b : Str), '"' ∉ a → cut (a ++ '"' :: b) = some (a, b)
  | [], b, _ => by simp [cut]
  | c :: a, b, h => by
    have hc : c ≠ '"' := fun e => h (by simp [e])
    rw [List.cons_append, cut, if_neg hc, cut_mid a b (fun hh => h (by simp [hh]))]; rfl

theorem cut_none : ∀ a : Str, '"' ∉ a → cut a = none
  | [], _ => rfl
  | c :: a, h => by
    have hc : c ≠ '"' := fun e => h (by simp [e])
    rw [cut, if_neg hc, cut_none a (fun hh => h (by simp [hh]))]; rfl

theorem line_four (isDir : Str → Bool) (pre name mid val post : Str) (c : Conf) (h1 : '"' ∉ pre) (h2 : '"' ∉ name) (h3 : '"' ∉ mid)
    (h4 : '"' ∉ val) :
    c.line isDir (pre ++ '"' :: (name ++ '"' :: (mid ++ '"' :: (val ++ '"' :: post)))) = c.apply isDir name val (val ++ '"' :: post) := by
  rw [Conf.line, cut_mid _ _ h1]; simp only
  rw [cut_mid _ _ h2]; simp only
  rw [cut_mid _ _ h3]; simp only
  rw [cut_mid _ _ h4]

theorem cut_count : ∀ (l a b : Str), cut l = some (a, b) → l.count '"' = b.count '"' + 1
  | [], a, b, h => by simp [cut] at h
  | c :: l, a, b, h => by
    rw [cut] at h
    split at h
    · rename_i hc; simp at h; rw [← h.2, hc]; simp
    · rename_i hc
      cases hk : cut l with
      | none => rw [hk] at h; simp at h
      | some p =>
        rw [hk] at h; simp at h
        have := cut_count l p.1 p.2 hk
        rw [List.count_cons_of_ne (fun e => hc e), this, h.2]

/-- A line with fewer than four quotation marks has no effect. -/
theorem line_few (isDir : Str → Bool) (l : Str) (c : Conf) (h : l.count '"' < 4) : c.line isDir l = c := by
  rw [Conf.line]
  cases h1 : cut l with
  | none => rfl
  | some p1 =>
    simp only
    cases h2 : cut p1.2 with
    | none => rfl
    | some p2 =>
      simp only
      cases h3 : cut p2.2 with
      | none => rfl
      | some p3 =>
        simp only
        cases h4 : cut p3.2 with
        | none => rfl
        | some p4 =>
          have a1 := cut_count _ _ _ h1
          have a2 := cut_count _ _ _ h2
          have a3 := cut_count _ _ _ h3
          have a4 := cut_count _ _ _ h4
          omega

/-! ### Numbers -/

/-- A digit as a character. -/
def dchar (upper : Bool) (d : Nat) : Char := if d < 10 then Char.ofNat (48 + d) else if upper then Char.ofNat (55 + d) else Char.ofNat (87 + d)

theorem digitVal_dchar16 : ∀ d < 16, ∀ u, digitVal 16 (dchar u d) = some d := by decide
theorem digitVal_dchar10 : ∀ d < 10, ∀ u, digitVal 10 (dchar u d) = some d := by decide
theorem digitVal_dchar8 : ∀ d < 8, ∀ u, digitVal 8 (dchar u d) = some d := by decide
theorem dchar_quote : ∀ d < 16, ∀ u, dchar u d ≠ '"' ∧ dchar u d ≠ '\n' ∧ space (dchar u d) = false ∧ dchar u d ≠ '-' ∧ dchar u d ≠ '+' ∧
    dchar u d ≠ 'x' ∧ dchar u d ≠ 'X' ∧ (dchar u d = '0' ↔ d = 0) := by decide

theorem leading_digits {b : Nat} (hb : ∀ d < b, ∀ u, digitVal b (dchar u d) = some d) (hq : digitVal b '"' = none) (u : Bool) (post : Str) :
    ∀ ds : List Nat, (∀ d ∈ ds, d < b) → leading b (ds.map (dchar u) ++ '"' :: post) = ds
  | [], _ => by simp [leading, hq]
  | d :: ds, h => by
    rw [List.map_cons, List.cons_append, leading, hb d (h d (by simp)) u]; simp only
    rw [leading_digits hb hq u post ds (fun x hx => h x (by simp [hx]))]

theorem foldl_ofDigits (b : Nat) (ds : List Nat) : ds.foldl (fun n d => n * b + d) 0 = Nat.ofDigits b ds.reverse := by
  have : ∀ (ds : List Nat), (ds.reverse).foldl (fun n d => n * b + d) 0 = Nat.ofDigits b ds := by
    intro ds
    induction ds with
    | nil => rfl
    | cons d ds ih => rw [List.reverse_cons, List.foldl_append, ih, Nat.ofDigits_cons]; simp only [List.foldl]; push_cast; ring
  rw [← this, List.reverse_reverse]

theorem strtoul_digits {b : Nat} (hb : ∀ d < b, ∀ u, digitVal b (dchar u d) = some d) (hq : digitVal b '"' = none) (h16 : b ≤ 16) (u : Bool)
    (post : Str) (ds : List Nat) (hne : ds ≠ []) (h : ∀ d ∈ ds, d < b) (hlt : Nat.ofDigits b ds.reverse < 2 ^ 64) :
    strtoul b (ds.map (dchar u) ++ '"' :: post) = some (Nat.ofDigits b ds.reverse) := by
  obtain ⟨d, ds', rfl⟩ := List.exists_cons_of_ne_nil hne
  have hd := dchar_quote d (lt_of_lt_of_le (h d (by simp)) h16) u
  have hun : unsignedVal b ((d :: ds').map (dchar u) ++ '"' :: post) = some (Nat.ofDigits b (d :: ds').reverse) := by
    have hl := leading_digits hb hq u post (d :: ds') h
    have : ∀ cs : Str, (∀ t, cs ≠ '0' :: 'x' :: t) → (∀ t, cs ≠ '0' :: 'X' :: t) → unsignedVal b cs = digitsVal b (leading b cs) := by
      intro cs a1 a2
      rw [unsignedVal]
      · intro t; exact a1 t
      · intro t; exact a2 t
    rw [this]
    · rw [hl, digitsVal]; simp only [List.isEmpty_cons, Bool.false_eq_true, if_false]; rw [foldl_ofDigits]
    · intro t ht
      rw [List.map_cons, List.cons_append] at ht
      injection ht with _ ht
      cases ds' with
      | nil => simp at ht
      | cons e es =>
        rw [List.map_cons, List.cons_append] at ht; injection ht with ht
        exact (dchar_quote e (lt_of_lt_of_le (h e (by simp)) h16) u).2.2.2.2.2.1 ht
    · intro t ht
      rw [List.map_cons, List.cons_append] at ht
      injection ht with _ ht
      cases ds' with
      | nil => simp at ht
      | cons e es =>
        rw [List.map_cons, List.cons_append] at ht; injection ht with ht
        exact (dchar_quote e (lt_of_lt_of_le (h e (by simp)) h16) u).2.2.2.2.2.2.1 ht
  have hdw : ((d :: ds').map (dchar u) ++ '"' :: post).dropWhile space = (d :: ds').map (dchar u) ++ '"' :: post := by
    rw [List.map_cons, List.cons_append, List.dropWhile_cons_of_neg (by simp [hd.2.2.1])]
  rw [strtoul, hdw]
  rw [signedVal, hun]
  · simp only [Option.map_some]; congr 1; omega
  · intro t ht; rw [List.map_cons, List.cons_append] at ht; injection ht with ht; exact hd.2.2.2.1 ht
  · intro t ht; rw [List.map_cons, List.cons_append] at ht; injection ht with ht; exact hd.2.2.2.2.1 ht

theorem number_dec (u : Bool) (post : Str) (ds : List Nat) (hne : ds.head? ≠ some 0) (hne' : ds ≠ []) (h : ∀ d ∈ ds, d < 10)
    (hlt : Nat.ofDigits 10 ds.reverse < 2 ^ 64) : number (ds.map (dchar u) ++ '"' :: post) = some (Nat.ofDigits 10 ds.reverse) := by
  have := strtoul_digits digitVal_dchar10 (by decide) (by omega) u post ds hne' h hlt
  rw [← this]
  obtain ⟨d, ds', rfl⟩ := List.exists_cons_of_ne_nil hne'
  have h0 : dchar u d ≠ '0' := by
    intro e; rw [(dchar_quote d (by have := h d (by simp); omega) u).2.2.2.2.2.2.2] at e; simp [e] at hne
  rw [number]
  · intro t ht; rw [List.map_cons, List.cons_append] at ht; injection ht with ht; exact h0 ht
  · intro t ht; rw [List.map_cons, List.cons_append] at ht; injection ht with ht; exact h0 ht
  · intro t ht; rw [List.map_cons, List.cons_append] at ht; injection ht with ht; exact h0 ht

theorem number_hex (u u' : Bool) (post : Str) (ds : List Nat) (hne : ds ≠ []) (h : ∀ d ∈ ds, d < 16)
    (hlt : Nat.ofDigits 16 ds.reverse < 2 ^ 64) :
    number ('0' :: (if u' then 'X' else 'x') :: (ds.map (dchar u) ++ '"' :: post)) = some (Nat.ofDigits 16 ds.reverse) := by
  have := strtoul_digits digitVal_dchar16 (by decide) (by omega) u post ds hne h hlt
  rw [← this]
  cases u' <;> simp [number]

theorem number_oct (u : Bool) (post : Str) (ds : List Nat) (hne : ds ≠ []) (h : ∀ d ∈ ds, d < 8)
    (hlt : Nat.ofDigits 8 ds.reverse < 2 ^ 64) : number ('0' :: (ds.map (dchar u) ++ '"' :: post)) = some (Nat.ofDigits 8 ds.reverse) := by
  have := strtoul_digits digitVal_dchar8 (by decide) (by omega) u post ds hne h hlt
  rw [← this]
  obtain ⟨d, ds', rfl⟩ := List.exists_cons_of_ne_nil hne
  have hd := dchar_quote d (by have := h d (by simp); omega) u
  rw [number]
  · intro t ht; rw [List.map_cons, List.cons_append] at ht; injection ht with ht; exact hd.2.2.2.2.2.1 ht
  · intro t ht; rw [List.map_cons, List.cons_append] at ht; injection ht with ht; exact hd.2.2.2.2.2.2.1 ht

theorem digitVal_none {c : Char} (h : ¬ ('0' ≤ c ∧ c ≤ '9')) : digitVal 10 c = none := by
  have e1 : ∀ a b : Char, a ≤ b → a.toNat ≤ b.toNat := fun a b h => h
  unfold digitVal
  simp only [if_neg h]
  rw [if_neg]
  split
  · rename_i hc; have := e1 _ _ hc.1; have : 'a'.toNat = 97 := rfl; omega
  · split
    · rename_i hc; have := e1 _ _ hc.1; have : 'A'.toNat = 65 := rfl; omega
    · omega

/-- A text that begins with something other than a digit, a space or a sign contains no number. -/
theorem number_none {c : Char} (cs : Str) (h : ¬ ('0' ≤ c ∧ c ≤ '9')) (hs : space c = false) (hp : c ≠ '+') (hm : c ≠ '-') :
    number (c :: cs) = none := by
  have h0 : c ≠ '0' := by rintro rfl; exact h (by decide)
  rw [number]
  · rw [strtoul, List.dropWhile_cons_of_neg (by simp [hs]), signedVal]
    · rw [unsignedVal]
      · simp [leading, digitVal_none h, digitsVal]
      · intro t ht; injection ht with ht; exact h0 ht
      · intro t ht; injection ht with ht; exact h0 ht
    · intro t ht; injection ht with ht; exact hm ht
    · intro t ht; injection ht with ht; exact hp ht
  · intro t ht; injection ht with ht; exact h0 ht
  · intro t ht; injection ht with ht; exact h0 ht
  · intro t ht; injection ht with ht; exact h0 ht

/-- A text that begins with a digit from 1 to 9 contains a number. -/
theorem number_some {c : Char} (cs : Str) (h : '1' ≤ c ∧ c ≤ '9') : ∃ n, number (c :: cs) = some n := by
  have e1 : ∀ a b : Char, a ≤ b → a.toNat ≤ b.toNat := fun a b h => h
  have k1 := e1 _ _ h.1
  have k2 := e1 _ _ h.2
  have w1 : '1'.toNat = 49 := rfl
  have w2 : '9'.toNat = 57 := rfl
  have hne : ∀ d : Char, (d.toNat < 49 ∨ 57 < d.toNat) → c ≠ d := by rintro d hd rfl; omega
  have h0 : c ≠ '0' := hne _ (Or.inl (by decide))
  have hs : space c = false := by
    simp only [space, Bool.or_eq_false_iff, decide_eq_false_iff_not]
    exact ⟨⟨⟨⟨⟨hne _ (Or.inl (by decide)), hne _ (Or.inl (by decide))⟩, hne _ (Or.inl (by decide))⟩, hne _ (Or.inl (by decide))⟩,
      hne _ (Or.inl (by decide))⟩, hne _ (Or.inl (by decide))⟩
  have hd : ∃ d, digitVal 10 c = some d := by
    have hz : '0' ≤ c := by show '0'.toNat ≤ c.toNat; have : '0'.toNat = 48 := rfl; omega
    refine ⟨c.toNat - 48, ?_⟩
    unfold digitVal
    simp only [if_pos (And.intro hz h.2)]
    rw [if_pos (by omega)]
  obtain ⟨d, hd⟩ := hd
  rw [number]
  · rw [strtoul, List.dropWhile_cons_of_neg (by simp [hs]), signedVal]
    · rw [unsignedVal]
      · rw [leading, hd]; simp [digitsVal]
      · intro t ht; injection ht with ht; exact h0 ht
      · intro t ht; injection ht with ht; exact h0 ht
    · intro t ht; injection ht with ht; exact hne _ (Or.inl (by decide)) ht
    · intro t ht; injection ht with ht; exact hne _ (Or.inl (by decide)) ht
  · intro t ht; injection ht with ht; exact h0 ht
  · intro t ht; injection ht with ht; exact h0 ht
  · intro t ht; injection ht with ht; exact h0 ht

end Verif.Conf
