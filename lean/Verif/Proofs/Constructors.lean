import Verif.Proofs.Tokenizer
import Verif.Spec.Views

/-! The constructors of token sets. -/

set_option linter.unusedSimpArgs false
set_option linter.unusedVariables false

namespace Tokens
open Spec
namespace TokenSet

theorem foldl_addSequence {α : Type} (f : α → Bytes) (g : α → List Nat) (l : List α) (ts : TokenSet) :
    l.foldl (fun ts c => ts.addSequence (f c) (g c)) ts =
      { ts with sequences := ts.sequences ++ l.map (fun c => { string := f c, tokens := g c }) } := by
  induction l generalizing ts with
  | nil => simp
  | cons x l ih => rw [List.foldl_cons, ih]; simp [addSequence]

/-- The ext tokens `0 .. n-1`. -/
def extTokens (n : Nat) : List Token := (List.range n).map (fun i => Token.ext (UInt8.ofNat i))

/-- The set of `new_bits1/2/4` in closed form. -/
def bitsSet (n : Nat) (ty : TokenType) (code : Nat → List Nat) (p : Processing) (split : Bool) :
    TokenSet :=
  { nExt := n, tokenType := ty, processing := p, splitParagraphs := split,
    tokens := extTokens n,
    sequences := (List.range 256).map (fun c => { string := [UInt8.ofNat c], tokens := code c }) }

theorem newBits1_eq (p : Processing) (split : Bool) : newBits1 p split =
    .ok (bitsSet 2 .bits1 (fun c => (digitLoop 1 1 8 c).reverse) p split) := by
  simp only [newBits1, new, rassert_true, R.ok_bind, decide_true, decide_eq_true_eq,
    Nat.reduceLT]
  rw [foldl_addSequence]
  rfl

theorem newBits2_eq (p : Processing) (split : Bool) : newBits2 p split =
    .ok (bitsSet 4 .bits2 (fun c => (digitLoop 3 2 4 c).reverse) p split) := by
  simp only [newBits2, new, rassert_true, R.ok_bind, decide_true, decide_eq_true_eq,
    Nat.reduceLT]
  rw [foldl_addSequence]
  rfl

theorem newBits4_eq (p : Processing) (split : Bool) : newBits4 p split =
    .ok (bitsSet 16 .bits4 (fun c => [c >>> 4, c &&& 15]) p split) := by
  simp only [newBits4, new, rassert_true, R.ok_bind, decide_true, decide_eq_true_eq,
    Nat.reduceLT]
  rw [foldl_addSequence]
  rfl

theorem extTokens_text (n : Nat) : (extTokens n).filterMap tokenText = [] := by
  unfold extTokens
  rw [List.filterMap_map]
  rw [List.filterMap_eq_nil_iff]
  intro a _
  rfl

/-- The 256 one-byte strings. -/
def byteStrings : List Bytes := (List.range 256).map (fun c => [UInt8.ofNat c])

theorem byteStrings_nodup : byteStrings.Nodup := by
  unfold byteStrings List.Nodup
  rw [List.pairwise_map]
  refine List.Pairwise.imp_of_mem ?_ (List.nodup_range (n := 256))
  intro a b ha hb hne h
  simp at ha hb
  apply hne
  simp at h
  have := congrArg UInt8.toNat h
  simp at this
  omega

theorem mem_byteStrings {s : Bytes} : s ∈ byteStrings ↔ ∃ b, s = [b] := by
  unfold byteStrings
  rw [List.mem_map]
  constructor
  · rintro ⟨c, _, rfl⟩; exact ⟨_, rfl⟩
  · rintro ⟨b, rfl⟩
    exact ⟨b.toNat, by simpa using b.toNat_lt, by simp⟩

theorem pieceStrings_bitsSet (n : Nat) (ty : TokenType) (code : Nat → List Nat) (p : Processing)
    (split : Bool) : pieceStrings (bitsSet n ty code p split) = byteStrings := by
  simp [pieceStrings, strTokens, bitsSet, extTokens_text, byteStrings]

theorem tokenizable_byteStrings {ts : TokenSet} (h : pieceStrings ts = byteStrings) :
    Tokenizable ts := by
  refine ⟨?_, ?_, ?_⟩
  · rw [h]; exact byteStrings_nodup
  · rw [h]; intro s hs; obtain ⟨b, rfl⟩ := mem_byteStrings.1 hs; simp
  · intro b; rw [h]; exact mem_byteStrings.2 ⟨b, rfl⟩

theorem bitsSet_tokenizable (n : Nat) (ty : TokenType) (code : Nat → List Nat) (p : Processing)
    (split : Bool) : Tokenizable (bitsSet n ty code p split) :=
  tokenizable_byteStrings (pieceStrings_bitsSet n ty code p split)

theorem bitsSet_inRange {n : Nat} (ty : TokenType) {code : Nat → List Nat} (p : Processing)
    (split : Bool) (h : ∀ c < 256, ∀ d ∈ code c, d < n) :
    SeqsInRange (bitsSet n ty code p split) := by
  intro q hq i hi
  simp only [bitsSet, List.mem_map, List.mem_range] at hq
  obtain ⟨c, hc, rfl⟩ := hq
  have := h c hc i hi
  rw [show (bitsSet n ty code p split).tokens.length = n by simp [bitsSet, extTokens]]
  exact this

theorem code1_lt : ∀ c < 256, ∀ d ∈ (digitLoop 1 1 8 c).reverse, d < 2 := by decide +kernel
theorem code2_lt : ∀ c < 256, ∀ d ∈ (digitLoop 3 2 4 c).reverse, d < 4 := by decide +kernel
theorem code4_lt : ∀ c < 256, ∀ d ∈ ([c >>> 4, c &&& 15] : List Nat), d < 16 := by decide +kernel

theorem addTokens_eq (ts : TokenSet) (l : List Bytes) (h : ∀ s ∈ l, s ≠ []) :
    ts.addTokens l = .ok { ts with
      tokens := ts.tokens ++ l.map Token.str,
      sequences := ts.sequences.filter (fun q => !l.contains q.string) } := by
  induction l generalizing ts with
  | nil => simp [addTokens]; rw [List.filter_eq_self.2 (fun _ _ => rfl)]
  | cons s l ih =>
    have hs : s ≠ [] := h s (by simp)
    have he : (!s.isEmpty) = true := by simp [hs]
    rw [addTokens, addToken]
    simp only [rassert_true he, R.ok_bind]
    rw [ih _ (fun x hx => h x (by simp [hx]))]
    simp only [List.map_cons, List.append_assoc, List.cons_append, List.nil_append,
      List.filter_filter, List.contains_cons]
    congr 3
    funext q
    simp [Bool.and_comm, bne]

/-- The set of `new_bytes` in closed form. -/
def bytesSet (p : Processing) : TokenSet :=
  { nExt := 0, tokenType := .bytes, processing := p, splitParagraphs := true,
    tokens := byteStrings.map Token.str, sequences := [] }

/-- The empty set that `new_bytes` starts from. -/
def bytesSet0 (p : Processing) : TokenSet :=
  { nExt := 0, tokenType := .bytes, processing := p, splitParagraphs := true,
    tokens := [], sequences := [] }

theorem newBytes_eq (p : Processing) : newBytes p = .ok (bytesSet p) := by
  have hne : ∀ s ∈ byteStrings, s ≠ [] := by
    intro s hs; obtain ⟨b, rfl⟩ := mem_byteStrings.1 hs; simp
  have h := addTokens_eq (bytesSet0 p) byteStrings hne
  have h0 : new 0 p .bytes true = .ok (bytesSet0 p) := by
    simp [new, rassert, bytesSet0]
  have h1 : newBytes p = (bytesSet0 p).addTokens byteStrings := by
    unfold newBytes byteStrings
    rw [h0, R.ok_bind]
  rw [h1, h]
  unfold bytesSet bytesSet0
  generalize byteStrings = l
  simp

theorem filterMap_str (l : List Bytes) : (l.map Token.str).filterMap tokenText = l := by
  induction l with
  | nil => rfl
  | cons s l ih => simp [tokenText, ih]

theorem bytesSet_tokenizable (p : Processing) : Tokenizable (bytesSet p) := by
  apply tokenizable_byteStrings
  unfold pieceStrings strTokens bytesSet
  rw [filterMap_str]
  exact List.append_nil _

theorem bytesSet_inRange (p : Processing) : SeqsInRange (bytesSet p) := by
  intro q hq; simp [bytesSet] at hq

end TokenSet
end Tokens
