import Mathlib.Data.Real.Basic
import Mathlib.Data.List.Basic

/-! Model of `display_topics`, regain/utils.py:51-71. -/

namespace Verif.Model

set_option autoImplicit false

/-- The positions `start, start - 1, ...` above `stop`, at most `fuel` of them: what the slice of regain/utils.py:61
visits. -/
def downTo : (fuel : ℕ) → (start stop : ℤ) → List ℤ
  | 0, _, _ => []
  | fuel + 1, start, stop => if start > stop then start :: downTo fuel (start - 1) stop else []

/-- Python's `a[:stop:-1]` as used in regain/utils.py:61: from the last position downwards, `stop` excluded; a negative
`stop` counts from the end and is raised to -1, the position before the first. -/
def sliceDown {β : Type} (a : List β) (stop : ℤ) : List β :=
  let stop' : ℤ := if stop < 0 then max (stop + a.length) (-1) else min stop (a.length - 1)
  (downTo a.length (a.length - 1) stop').filterMap fun k => a[k.toNat]?

/-- The words of a topic, regain/utils.py:56-64: `topic.argsort()[: -n_top_words - 1 : -1]`, with `order` what
`argsort` returns. Simplified: the positions, not the formatted names and weights; every position is assumed to have a
name. -/
def topWords (order : List ℕ) (n : ℕ) : List ℕ := sliceDown order (-(n : ℤ) - 1)

/-- The documents of a topic, regain/utils.py:67: `np.argsort(W[:, topic_idx])[::-1][:n_top_documents]`.
Simplified: the positions, not the printed text. -/
def topDocuments (order : List ℕ) (n : ℕ) : List ℕ := order.reverse.take n

end Verif.Model
