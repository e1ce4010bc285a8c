/-!
# Exceptions as values
One constructor per Python exception class the modelled code can raise (or lets escape from pandas/NumPy).
`oob` stands for an out-of-bounds array read inside an `@njit` function (Numba does not check bounds: undefined behaviour).
-/
namespace Cheval

inductive Err where
  | utilityBounds      -- cheval/core.py:23 UtilityBoundsError
  | modelNotReady      -- cheval/exceptions.py:5 ModelNotReadyError
  | unsupportedSyntax  -- cheval/parsing/exceptions.py:1 UnsupportedSyntaxError
  | syntaxErr          -- SyntaxError
  | linkageSpec        -- cheval/ldf/constants.py:5 LinkageSpecificationError
  | assertion          -- AssertionError
  | key                -- KeyError
  | index              -- IndexError
  | value              -- ValueError
  | type               -- TypeError
  | attribute          -- AttributeError
  | runtime            -- RuntimeError
  | notImplemented     -- NotImplementedError
  | oob                -- unchecked out-of-bounds access in compiled code
deriving DecidableEq, Repr

end Cheval
