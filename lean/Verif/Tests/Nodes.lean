import Verif.Tests.Harness

namespace Larch.Tests

/-- `'temp'`, `'child'`, `'child2'`, `'futur'` and other nodes of the tests. -/
def temp : Id := .str 21
def kid : Id := .str 22
def kid2 : Id := .str 23
def kid3 : Id := .str 24
def kid4 : Id := .str 25
def kid5 : Id := .str 26
def futur : Id := .str 27
def par : Id := .str 28
def temp2 : Id := .str 29
def tempKid : Id := .str 30

end Larch.Tests
