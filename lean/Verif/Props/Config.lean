import Verif.Session.Config

/-!
# C63: the configuration file `.adolcrc`

Specification: a file is a sequence of lines; a line gives a number to a variable, or a directory to `TAPE_DIR`, or is
something else.  Each variable has the value given last.
-/
set_option linter.all false
namespace Verif.Conf
open Verif.Reg Verif.StoreBlock

/-! ### Specification -/

/-- The variables that take numbers. -/
inductive Var | obuf | lbuf | vbuf | tbuf | live
deriving DecidableEq

def Var.name : Var → Str
  | .obuf => ['O', 'B', 'U', 'F', 'S', 'I', 'Z', 'E']
  | .lbuf => ['L', 'B', 'U', 'F', 'S', 'I', 'Z', 'E']
  | .vbuf => ['V', 'B', 'U', 'F', 'S', 'I', 'Z', 'E']
  | .tbuf => ['T', 'B', 'U', 'F', 'S', 'I', 'Z', 'E']
  | .live => ['I', 'N', 'I', 'T', 'L', 'I', 'V', 'E']

/-- A number as C programmers write it: decimal, octal (with a `0` before it) or hexadecimal (with `0x` or `0X` before it). -/
inductive Numeral where
  | dec (ds : List Nat)
  | oct (ds : List Nat)
  | hex (upperX upper : Bool) (ds : List Nat)

def Numeral.text : Numeral → Str
  | .dec ds => ds.map (dchar false)
  | .oct ds => '0' :: ds.map (dchar false)
  | .hex ux up ds => '0' :: (if ux then 'X' else 'x') :: ds.map (dchar up)

def Numeral.value : Numeral → Nat
  | .dec ds => Nat.ofDigits 10 ds.reverse
  | .oct ds => Nat.ofDigits 8 ds.reverse
  | .hex _ _ ds => Nat.ofDigits 16 ds.reverse

/-- Decimal digits without a leading zero, octal or hexadecimal digits; a value of 64 bits. -/
def Numeral.Ok : Numeral → Prop
  | .dec ds => ds ≠ [] ∧ ds.head? ≠ some 0 ∧ (∀ d ∈ ds, d < 10) ∧ Nat.ofDigits 10 ds.reverse < 2 ^ 64
  | .oct ds => ds ≠ [] ∧ (∀ d ∈ ds, d < 8) ∧ Nat.ofDigits 8 ds.reverse < 2 ^ 64
  | .hex _ _ ds => ds ≠ [] ∧ (∀ d ∈ ds, d < 16) ∧ Nat.ofDigits 16 ds.reverse < 2 ^ 64

/-- A line: `pre "VARIABLE" mid "VALUE" post`, or anything else. -/
inductive Line where
  | num (pre mid post : Str) (v : Var) (n : Numeral)
  | dir (pre mid post : Str) (path : Str)
  | unknown (pre mid post : Str) (name val : Str)
  | other (s : Str)

def quoted (pre name mid val post : Str) : Str := pre ++ '"' :: (name ++ '"' :: (mid ++ '"' :: (val ++ '"' :: post)))

def Line.text : Line → Str
  | .num pre mid post v n => quoted pre v.name mid n.text post
  | .dir pre mid post path => quoted pre ['T', 'A', 'P', 'E', '_', 'D', 'I', 'R'] mid path post
  | .unknown pre mid post name val => quoted pre name mid val post
  | .other s => s

/-- No quotation mark and no newline. -/
def Plain (s : Str) : Prop := '"' ∉ s ∧ '\n' ∉ s

/-- The first character is no digit, space or sign. -/
def NotNumeric (path : Str) : Prop := ∃ c cs, path = c :: cs ∧ ¬ ('0' ≤ c ∧ c ≤ '9') ∧ space c = false ∧ c ≠ '+' ∧ c ≠ '-'

/-- Lines of at most 99 characters.  There may be any text without quotation marks between and before the strings and any
text behind them.  A line that sets nothing: an unknown name, or fewer than four quotation marks. -/
def Line.Ok : Line → Prop
  | l@(.num pre mid post _ n) => Plain pre ∧ Plain mid ∧ '\n' ∉ post ∧ n.Ok ∧ l.text.length < 100
  | l@(.dir pre mid post path) => Plain pre ∧ Plain mid ∧ '\n' ∉ post ∧ Plain path ∧ NotNumeric path ∧ l.text.length < 100
  | l@(.unknown pre mid post name val) => Plain pre ∧ Plain mid ∧ '\n' ∉ post ∧ Plain name ∧ Plain val ∧ (∀ v : Var, name ≠ v.name) ∧
      name ≠ ['T', 'A', 'P', 'E', '_', 'D', 'I', 'R'] ∧ l.text.length < 100
  | .other s => '\n' ∉ s ∧ s.count '"' < 4 ∧ s.length < 100

/-- The file: its lines, and the text behind the last newline. -/
def fileOf (ls : List Line) (last : Line) : Str := (ls.flatMap fun l => l.text ++ ['\n']) ++ last.text

/-- The number a line gives to a variable. -/
def Line.gives (v : Var) : Line → Option Nat
  | .num _ _ _ w n => if w = v then some n.value else none
  | _ => none

/-- The existing directory a line gives. -/
def Line.givesDir (isDir : Str → Bool) : Line → Option Str
  | .dir _ _ _ path => if isDir path then some path else none
  | _ => none

/-- The number given last. -/
def lastGiven (v : Var) (ls : List Line) : Option Nat := (ls.filterMap (Line.gives v)).getLast?

def lastDir (isDir : Str → Bool) (ls : List Line) : Option Str := (ls.filterMap (Line.givesDir isDir)).getLast?

/-! ### Proofs -/

theorem numeral_plain (n : Numeral) (h : n.Ok) : Plain n.text := by
  have key : ∀ (u : Bool) (ds : List Nat), (∀ d ∈ ds, d < 16) → ∀ c ∈ ds.map (dchar u), c ≠ '"' ∧ c ≠ '\n' := by
    intro u ds hd c hc
    obtain ⟨d, hm, rfl⟩ := List.mem_map.1 hc
    have := dchar_quote d (hd d hm) u
    exact ⟨this.1, this.2.1⟩
  cases n with
  | dec ds =>
    have k := key false ds (fun d hd => by have := h.2.2.1 d hd; omega)
    exact ⟨fun hh => (k _ hh).1 rfl, fun hh => (k _ hh).2 rfl⟩
  | oct ds =>
    have k := key false ds (fun d hd => by have := h.2.1 d hd; omega)
    constructor
    · intro hh; rcases List.mem_cons.1 hh with e | hh
      · exact absurd e (by decide)
      · exact (k _ hh).1 rfl
    · intro hh; rcases List.mem_cons.1 hh with e | hh
      · exact absurd e (by decide)
      · exact (k _ hh).2 rfl
  | hex ux up ds =>
    have k := key up ds h.2.1
    constructor
    · intro hh; rcases List.mem_cons.1 hh with e | hh
      · exact absurd e (by decide)
      · rcases List.mem_cons.1 hh with e | hh
        · cases ux <;> exact absurd e (by decide)
        · exact (k _ hh).1 rfl
    · intro hh; rcases List.mem_cons.1 hh with e | hh
      · exact absurd e (by decide)
      · rcases List.mem_cons.1 hh with e | hh
        · cases ux <;> exact absurd e (by decide)
        · exact (k _ hh).2 rfl

theorem numeral_number (n : Numeral) (h : n.Ok) (post : Str) : number (n.text ++ '"' :: post) = some n.value := by
  cases n with
  | dec ds => exact number_dec false post ds h.2.1 h.1 h.2.2.1 h.2.2.2
  | oct ds => exact number_oct false post ds h.1 h.2.1 h.2.2
  | hex ux up ds => exact number_hex up ux post ds h.1 h.2.1 h.2.2

theorem name_plain (v : Var) : Plain v.name := by cases v <;> exact ⟨by decide, by decide⟩

theorem quoted_nl {pre name mid val post : Str} (h1 : '\n' ∉ pre) (h2 : '\n' ∉ name) (h3 : '\n' ∉ mid) (h4 : '\n' ∉ val) (h5 : '\n' ∉ post) :
    '\n' ∉ quoted pre name mid val post := by
  have hq : ('\n' : Char) ≠ '"' := by decide
  simp only [quoted, List.mem_append, List.mem_cons]
  tauto

theorem ok_text {l : Line} (h : l.Ok) : '\n' ∉ l.text ∧ l.text.length < lineLength := by
  cases l with
  | num pre mid post v n =>
    exact ⟨quoted_nl h.1.2 (name_plain v).2 h.2.1.2 (numeral_plain n h.2.2.2.1).2 h.2.2.1, h.2.2.2.2⟩
  | dir pre mid post path =>
    exact ⟨quoted_nl h.1.2 (by decide) h.2.1.2 h.2.2.2.1.2 h.2.2.1, h.2.2.2.2.2⟩
  | unknown pre mid post name val =>
    exact ⟨quoted_nl h.1.2 h.2.2.2.1.2 h.2.1.2 h.2.2.2.2.1.2 h.2.2.1, h.2.2.2.2.2.2.2⟩
  | other s => exact ⟨h.1, h.2.2⟩

/-- What a line does. -/
def Line.act (isDir : Str → Bool) (l : Line) (c : Conf) : Conf :=
  match l with
  | .num _ _ _ .obuf n => { c with obuf := n.value }
  | .num _ _ _ .lbuf n => { c with lbuf := n.value }
  | .num _ _ _ .vbuf n => { c with vbuf := n.value }
  | .num _ _ _ .tbuf n => { c with tbuf := n.value }
  | .num _ _ _ .live n => c.initLive n.value
  | .dir _ _ _ path => if isDir path then { c with names := fun k => path ++ '/' :: base k } else c
  | _ => c

theorem line_act (isDir : Str → Bool) {l : Line} (h : l.Ok) (nl : Str) (hnl : nl = [] ∨ nl = ['\n']) (c : Conf) :
    c.line isDir (l.text ++ nl) = l.act isDir c := by
  have hq : '"' ∉ nl := by rcases hnl with rfl | rfl <;> decide
  have e : ∀ pre name mid val post : Str, quoted pre name mid val post ++ nl = quoted pre name mid val (post ++ nl) := by
    intros; simp [quoted]
  cases l with
  | num pre mid post v n =>
    simp only [Line.text]
    rw [e, quoted, line_four isDir _ _ _ _ _ c h.1.1 (name_plain v).1 h.2.1.1 (numeral_plain n h.2.2.2.1).1, Conf.apply,
      numeral_number n h.2.2.2.1]
    cases v <;> simp [Line.act, Var.name, nOBUF, nLBUF, nVBUF, nTBUF, nLIVE]
  | dir pre mid post path =>
    obtain ⟨ch, cs, hp, g1, g2, g3, g4⟩ := h.2.2.2.2.1
    simp only [Line.text]
    rw [e, quoted, line_four isDir _ _ _ _ _ c h.1.1 (by decide) h.2.1.1 h.2.2.2.1.1, Conf.apply]
    have : number (path ++ '"' :: (post ++ nl)) = none := by rw [hp, List.cons_append]; exact number_none _ g1 g2 g3 g4
    rw [this]
    simp [Line.act, nDIR]
  | unknown pre mid post name val =>
    obtain ⟨h1, h2, h3, h4, h5, h6, h7, _⟩ := h
    simp only [Line.text]
    rw [e, quoted, line_four isDir _ _ _ _ _ c h1.1 h4.1 h2.1 h5.1, Conf.apply]
    have k1 : name ≠ nOBUF := h6 .obuf
    have k2 : name ≠ nLBUF := h6 .lbuf
    have k3 : name ≠ nVBUF := h6 .vbuf
    have k4 : name ≠ nTBUF := h6 .tbuf
    have k5 : name ≠ nLIVE := h6 .live
    have k6 : name ≠ nDIR := h7
    cases number (val ++ '"' :: (post ++ nl)) <;> simp [Line.act, k1, k2, k3, k4, k5, k6]
  | other s =>
    simp only [Line.text, Line.act]
    apply line_few
    rw [List.count_append, List.count_eq_zero.2 hq]
    exact h.2.1

theorem read_fold (gc : Nat → Nat → Bool) (isDir : Str → Bool) {ls : List Line} {last : Line} (h : ∀ l ∈ ls, l.Ok) (hl : last.Ok) :
    readConfig gc isDir (some (fileOf ls last)) = (ls ++ [last]).foldl (fun c l => l.act isDir c) (Conf.init gc) := by
  have e : (ls.flatMap fun l => l.text ++ ['\n']) = (ls.map Line.text).flatMap fun l => l ++ ['\n'] := by
    rw [List.flatMap_map]
  rw [readConfig, fileOf, e, loop_lines, loop_last isDir _ (ok_text hl).1 (ok_text hl).2, List.foldl_append, List.foldl_map]
  · have : ∀ (ls : List Line) (c : Conf), (∀ l ∈ ls, l.Ok) → ls.foldl (fun c l => c.line isDir (l.text ++ ['\n'])) c =
        ls.foldl (fun c l => l.act isDir c) c := by
      intro ls
      induction ls with
      | nil => intro c _; rfl
      | cons l ls ih =>
        intro c h
        rw [List.foldl_cons, List.foldl_cons, line_act isDir (h l (by simp)) _ (Or.inr rfl), ih _ (fun x hx => h x (by simp [hx]))]
    rw [this ls _ h]
    have k := line_act isDir hl [] (Or.inl rfl) (ls.foldl (fun c l => l.act isDir c) (Conf.init gc))
    rw [List.append_nil] at k
    rw [k]; rfl
  · intro l hl
    obtain ⟨x, hx, rfl⟩ := List.mem_map.1 hl
    exact ok_text (h x hx)

theorem fold_last {β γ : Type} (get : Conf → β) (emb : γ → β) (f : Line → Option γ) (act : Line → Conf → Conf)
    (hact : ∀ l c, get (act l c) = (f l).elim (get c) emb) : ∀ (ls : List Line) (c : Conf),
    get (ls.foldl (fun c l => act l c) c) = ((ls.filterMap f).getLast?).elim (get c) emb := by
  intro ls
  induction ls using List.reverseRecOn with
  | nil => intro c; rfl
  | append_singleton ls l ih =>
    intro c
    rw [List.foldl_append, List.foldl_cons, List.foldl_nil, hact, ih, List.filterMap_append]
    cases hf : f l with
    | some x => simp [List.filterMap_cons, hf]
    | none => simp [List.filterMap_cons, hf]

theorem store_ge (isDir : Str → Bool) : ∀ (ls : List Line) (c : Conf) (n : Nat), (some n ∈ ls.map (Line.gives .live) ∨ n ≤ c.store.maxsize) → 4 < n →
    n ≤ (ls.foldl (fun c l => l.act isDir c) c).store.maxsize := by
  have mono : ∀ (l : Line) (c : Conf), c.store.maxsize ≤ (l.act isDir c).store.maxsize ∧
      ∀ n, l.gives .live = some n → 4 < n → n ≤ (l.act isDir c).store.maxsize := by
    intro l c
    have grow : ∀ n, c.store.maxsize ≤ (c.initLive n).store.maxsize ∧ (4 < n → n ≤ (c.initLive n).store.maxsize) := by
      intro n
      have := growTarget_spec c.store.maxsize n
      simp only [Conf.initLive]
      split
      · rename_i hn
        have e : (c.store.grow n).maxsize = growTarget c.store.maxsize n := rfl
        rw [e]
        constructor
        · omega
        · intro _; omega
      · rename_i hn
        exact ⟨le_refl _, fun h => absurd h hn⟩
    rcases l with ⟨pre, mid, post, v, n⟩ | ⟨pre, mid, post, path⟩ | ⟨pre, mid, post, name, val⟩ | s
    · cases v <;> simp [Line.act, Line.gives]
      exact ⟨(grow _).1, fun h => (grow _).2 h⟩
    · simp only [Line.act, Line.gives]
      split <;> simp
    · simp [Line.act, Line.gives]
    · simp [Line.act, Line.gives]
  intro ls
  induction ls with
  | nil => intro c n h _; simpa using h
  | cons l ls ih =>
    intro c n h hn
    rw [List.foldl_cons]
    apply ih _ _ _ hn
    rcases h with h | h
    · rw [List.map_cons] at h
      rcases List.mem_cons.1 h with h | h
      · exact Or.inr ((mono l c).2 n h.symm hn)
      · exact Or.inl h
    · exact Or.inr (le_trans h (mono l c).1)

/-- **C63** (partial: values that are numbers as described by `Numeral.Ok`, directories whose names do not begin with a digit,
a space or a sign, lines of less than 100 characters).  For every file of such lines, every order and number of settings,
and every set of existing directories: the buffer sizes that `tapestats` reports after `trace_on`, the names of the tape's
files and the requested size of the store are the ones given last, or the defaults; and the store has room for every number of
live variables asked for. -/
theorem C63_config_file_partial (gc : Nat → Nat → Bool) (isDir : Str → Bool) (ls : List Line) (last : Line) (h : ∀ l ∈ ls, l.Ok)
    (hl : last.Ok) :
    let c := readConfig gc isDir (some (fileOf ls last))
    let all := ls ++ [last]
    c.bufferStats = ((lastGiven .obuf all).getD 524288, (lastGiven .lbuf all).getD 524288, (lastGiven .vbuf all).getD 524288,
      (lastGiven .tbuf all).getD 524288) ∧
    c.live = (lastGiven .live all).getD 0 ∧
    (∀ k ix id, c.fileName k ix id = Verif.Reg.fileName ((lastDir isDir all).getD ['.']) k ix id) ∧
    ∀ l ∈ all, ∀ n, l.gives .live = some n → 4 < n → n ≤ c.store.maxsize := by
  intro c all
  have hc : c = all.foldl (fun c l => l.act isDir c) (Conf.init gc) := read_fold gc isDir h hl
  have gd : ∀ (o : Option Nat) (d : Nat), o.elim d (fun x => x) = o.getD d := by intro o d; cases o <;> rfl
  have aux : ∀ (get : Conf → Nat) (v : Var) (_ : ∀ l c, get (Line.act isDir l c) = (l.gives v).elim (get c) fun x => x),
      get c = (lastGiven v all).getD (get (Conf.init gc)) := by
    intro get v hact
    rw [hc, fold_last get (fun x => x) (Line.gives v) (fun l c => l.act isDir c) hact all, gd]; rfl
  have split4 : ∀ (get : Conf → Nat) (v : Var), (∀ pre mid post w n c, get (Line.act isDir (.num pre mid post w n) c) =
      if w = v then n.value else get c) → (∀ (c : Conf) f, get { c with names := f } = get c) →
      ∀ l c, get (Line.act isDir l c) = (l.gives v).elim (get c) fun x => x := by
    intro get v hn hd l c
    rcases l with ⟨pre, mid, post, w, n⟩ | ⟨pre, mid, post, path⟩ | ⟨pre, mid, post, name, val⟩ | s
    · rw [hn]; simp only [Line.gives]; split <;> rfl
    · simp only [Line.act, Line.gives]; split
      · exact hd _ _
      · rfl
    · rfl
    · rfl
  have o := aux Conf.obuf .obuf (split4 _ _ (by intro _ _ _ w n c; cases w <;> simp [Line.act, Conf.initLive]) (by intros; rfl))
  have l := aux Conf.lbuf .lbuf (split4 _ _ (by intro _ _ _ w n c; cases w <;> simp [Line.act, Conf.initLive]) (by intros; rfl))
  have v := aux Conf.vbuf .vbuf (split4 _ _ (by intro _ _ _ w n c; cases w <;> simp [Line.act, Conf.initLive]) (by intros; rfl))
  have t := aux Conf.tbuf .tbuf (split4 _ _ (by intro _ _ _ w n c; cases w <;> simp [Line.act, Conf.initLive]) (by intros; rfl))
  have i := aux Conf.live .live (split4 _ _ (by intro _ _ _ w n c; cases w <;> simp [Line.act, Conf.initLive]) (by intros; rfl))
  have d : c.names = fun k => ((lastDir isDir all).getD ['.']) ++ '/' :: base k := by
    rw [hc, fold_last Conf.names (fun (p : Str) k => p ++ '/' :: base k) (Line.givesDir isDir) (fun l c => l.act isDir c)]
    · show Option.elim (lastDir isDir all) _ _ = _
      cases lastDir isDir all <;> rfl
    · intro l c
      rcases l with ⟨pre, mid, post, w, n⟩ | ⟨pre, mid, post, path⟩ | ⟨pre, mid, post, name, val⟩ | s
      · cases w <;> rfl
      · simp only [Line.act, Line.givesDir]; split <;> rfl
      · rfl
      · rfl
  refine ⟨?_, i, ?_, ?_⟩
  · rw [Conf.bufferStats, o, l, v, t]; rfl
  · intro k ix id
    rw [Conf.fileName, d, Verif.Reg.fileName]
  · intro x hx n hg hn
    rw [hc]
    exact store_ge isDir all _ n (Or.inl (List.mem_map.2 ⟨x, hx, hg⟩)) hn

/-- Without a file the defaults are used. -/
theorem C63_no_file (gc : Nat → Nat → Bool) (isDir : Str → Bool) : (readConfig gc isDir none).bufferStats = (524288, 524288, 524288, 524288) ∧
    ∀ k ix id, (readConfig gc isDir none).fileName k ix id = Verif.Reg.fileName ['.'] k ix id := by
  refine ⟨rfl, fun k ix id => ?_⟩
  simp [readConfig, Conf.fileName, Conf.init, Verif.Reg.fileName]

/-- **C63 fails** for directories whose names begin with a digit: the line is ignored, although the directory exists. -/
theorem C63_fails_numeric_directory (gc : Nat → Nat → Bool) (isDir : Str → Bool) (ch : Char) (path : Str) (hd : '1' ≤ ch ∧ ch ≤ '9')
    (hp : Plain (ch :: path)) (hl : (quoted [] ['T', 'A', 'P', 'E', '_', 'D', 'I', 'R'] [' ', '=', ' '] (ch :: path) []).length < 100)
    (he : isDir (ch :: path) = true) :
    ∀ k ix id, (readConfig gc isDir (some (quoted [] ['T', 'A', 'P', 'E', '_', 'D', 'I', 'R'] [' ', '=', ' '] (ch :: path) []))).fileName k ix id =
      Verif.Reg.fileName ['.'] k ix id := by
  intro k ix id
  obtain ⟨n, hn⟩ := number_some (path ++ '"' :: []) hd
  have e : readConfig gc isDir (some (quoted [] ['T', 'A', 'P', 'E', '_', 'D', 'I', 'R'] [' ', '=', ' '] (ch :: path) [])) = Conf.init gc := by
    rw [readConfig, loop_last isDir _ (quoted_nl (by decide) (by decide) (by decide) hp.2 (by decide)) hl, quoted,
      line_four isDir _ _ _ _ _ _ (by decide) (by decide) (by decide) hp.1, Conf.apply, List.cons_append, hn]
    simp [nOBUF, nLBUF, nVBUF, nTBUF, nLIVE]
  rw [e]
  simp [Conf.fileName, Conf.init, Verif.Reg.fileName]

/-- **C63 fails** behind a long line: when 100 characters come without a newline, no later line has any effect, whatever it is. -/
theorem C63_fails_behind_long_line (gc : Nat → Nat → Bool) (isDir : Str → Bool) (ls : List Str) (hls : ∀ l ∈ ls, '\n' ∉ l ∧ l.length < 100)
    (long : Str) (h : '\n' ∉ long) (hl : long.length = 100) (rest rest' : Str) :
    readConfig gc isDir (some ((ls.flatMap fun l => l ++ ['\n']) ++ (long ++ rest))) =
      readConfig gc isDir (some ((ls.flatMap fun l => l ++ ['\n']) ++ (long ++ rest'))) := by
  have key : ∀ r, readConfig gc isDir (some ((ls.flatMap fun l => l ++ ['\n']) ++ (long ++ r))) =
      ls.foldl (fun c l => c.line isDir (l ++ ['\n'])) (Conf.init gc) := by
    intro r
    have hx : long.getLast? ≠ some '\n' := fun e => h (List.mem_of_getLast? e)
    rw [readConfig, loop_lines isDir _ ls _ hls, chunks_eq _ (by intro e; simp at e; simp [e.1] at hl), fgets_long lineLength _ _ h hl, Conf.loop,
      if_pos ⟨hl, hx⟩]
  rw [key, key]

/-- **C63 fails** for zero: `"0"` is not accepted, so a setting before it stays. -/
theorem C63_fails_zero (isDir : Str → Bool) (c : Conf) (name : Str) (hn : '"' ∉ name) (hd : name ≠ nDIR) :
    c.line isDir (quoted [] name [' ', '=', ' '] ['0'] []) = c := by
  rw [quoted, line_four isDir _ _ _ _ _ _ (by decide) hn (by decide) (by decide), Conf.apply]
  have : number (['0'] ++ '"' :: []) = none := by decide
  rw [this]; simp [hd]

/-- **C63 fails** for values that are not numbers: the digits at the beginning count, and a negative number is a huge one. -/
theorem C63_fails_not_numbers : number ['1', '2', 'k', '"'] = some 12 ∧ number ['-', '1', '"'] = some (2 ^ 64 - 1) := by decide

/-! ### The hypotheses can be met -/

/-- `"OBUFSIZE" = "1024"`, a remark, `"TAPE_DIR" = "/tmp"`, `"OBUFSIZE" = "0xFf"`, `"INITLIVE" = "0100"`. -/
def demoLines : List Line :=
  [.num [] [' ', '=', ' '] [] .obuf (.dec [1, 0, 2, 4]), .other ['#', ' ', '"', 'a', '"'], .dir [] [' ', '=', ' '] [] ['/', 't', 'm', 'p'],
    .num [] ['='] [' ', '#', '"'] .obuf (.hex false true [15, 15])]

def demoLast : Line := .num [' '] ['='] [] .live (.oct [1, 0, 0])

example : (∀ l ∈ demoLines, l.Ok) ∧ demoLast.Ok := by
  have pl : ∀ s : Str, (decide ('"' ∉ s ∧ '\n' ∉ s) = true) → Plain s := fun s h => by simpa [Plain] using h
  refine ⟨?_, ?_⟩
  · intro l hl
    simp only [demoLines, List.mem_cons, List.not_mem_nil, or_false] at hl
    rcases hl with rfl | rfl | rfl | rfl
    · exact ⟨pl _ (by decide), pl _ (by decide), by decide, ⟨by decide, by decide, by decide, by decide⟩, by decide⟩
    · exact ⟨by decide, by decide, by decide⟩
    · exact ⟨pl _ (by decide), pl _ (by decide), by decide, pl _ (by decide), ⟨'/', _, rfl, by decide, by decide, by decide, by decide⟩, by decide⟩
    · exact ⟨pl _ (by decide), pl _ (by decide), by decide, ⟨by decide, by decide, by decide⟩, by decide⟩
  · exact ⟨pl _ (by decide), pl _ (by decide), by decide, ⟨by decide, by decide, by decide⟩, by decide⟩

example : lastGiven .obuf (demoLines ++ [demoLast]) = some 255 ∧ lastGiven .live (demoLines ++ [demoLast]) = some 64 ∧
    lastGiven .vbuf (demoLines ++ [demoLast]) = none ∧ lastDir (fun _ => true) (demoLines ++ [demoLast]) = some ['/', 't', 'm', 'p'] := by decide

/-- A directory `2024` exists. -/
example : Plain ('2' :: ['0', '2', '4']) ∧ ('1' ≤ '2' ∧ '2' ≤ '9') := ⟨⟨by decide, by decide⟩, by decide⟩

end Verif.Conf
