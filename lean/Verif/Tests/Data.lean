import Verif.Base.Basic

/-!
# The data files of the project's own tests

Byte for byte copies of the files under /repo/tests/*/data that the tests of Verif/Tests load (generated by a script).
-/

namespace Pigo.Tests

/-- tests/base/data/nl.txt, 516 bytes. -/
def nlTxt : List Byte := str "2b246370834f8dfe97b11c61fa628b73961583c087041ddb\ne2\naab366600fc2ef9960d26d8b13a5\nc489cc62e4b6d335\n13c7dd6ab103d3f5082f\nb2294e0e9038edaa288676a9e25520d2e9fe39712b99b9ee03aba3ac\n361caf867291d8f287\nb31cbf549cb0255c118b08e05e7d674995b5\n001ed418d1176cfc0898dee91ff7988be7bf\n60f9944ded52e4cfbe376716c0a3c83f\n\n798ca5483bef2e6a3c6b52c71b5eac7038c6f0c089f6476216f905\nc794165186a6a91b11ba59a1773d51a8ba253077fca1fc33\nee295e59819098bacd3063cdce810c\n892247fa069c61d2285d643f8012fb4b\ne58f872b5a\nf47a\n7e15e99bdc85\n771e28dcd7\n99\n\n\n"

/-- tests/base/data/file.txt, 155 bytes. -/
def fileTxt : List Byte := str "Written by GPT2, BASED on a novel by GPT5, this book covers the events of the last three years of life, and their impact on modern science and technology.\n"

/-- tests/coo/data/clean.el, 28 bytes. -/
def cleanEl : List Byte := str "0 1\n1 2\n2 3\n3 4\n4 5\n5 0\n2 9\n"

/-- tests/coo/data/with-comments.el, 264 bytes. -/
def withCommentsEl : List Byte := str "% HEADER\n\n# some blank lines\n\n# and other comments\n% also like this # okay\n5 3\n2 1\n\n        # comments.\n\n9 8\n5 6 # this also---\n6 7\n7 8\n# internal lines\n8 9\n3 0 0.23 32 34 5422 99 \n% internal lines\n3 8 35 4.3 3 4 5 6\n3 9 394 5 3 1\n\n3 4\n5 2\n% ending with newlines\n\n"

/-- tests/coo/data/without-comments.el, 48 bytes. -/
def withoutCommentsEl : List Byte := str "5 3\n2 1\n9 8\n5 6\n6 7\n7 8\n8 9\n3 0\n3 8\n3 9\n3 4\n5 2\n"

/-- tests/coo/data/selfloop.el, 40 bytes. -/
def selfloopEl : List Byte := str "0 1\n0 2\n0 3\n1 0\n1 1\n2 1\n2 2\n3 0\n3 2\n3 3\n"

/-- tests/coo/data/ut.el, 56 bytes. -/
def utEl : List Byte := str "5 6\n4 4\n4 4\n3 4\n6 5\n1 2\n1 1\n1 0\n0 2\n0 1\n9 8\n8 7\n7 6\n6 5\n"

/-- tests/coo/data/sparse.mtx, 79 bytes. -/
def sparseMtx : List Byte := str "%%MatrixMarket matrix coordinate real general\n2 3 3\n1 3 -4.0\n2 3 -2.0\n2 1 99.3\n"

/-- tests/coo/data/sparse-bad.mtx, 70 bytes. -/
def sparseBadMtx : List Byte := str "%%MatrixMarket matrix coordinate real general\n2 2 2\n99 8 3.0\n45 45 3.\n"

/-- tests/coo/data/partial.mtx, 19 bytes. -/
def partialMtx : List Byte := str "%%Matr\n5 5 1\n12 23\n"

/-- tests/coo/data/dense.mtx, 72 bytes. -/
def denseMtx : List Byte := str "%%MatrixMarket matrix array real general\n2 3\n23.0\n9\n-8.3\n99.1\n3.21\n7.88\n"

/-- tests/coo/data/bigger.mtx, 65 bytes. -/
def biggerMtx : List Byte := str "%%MatrixMarket matrix coordinate real general\n500 600 2\n1 10\n2 6\n"

/-- tests/coo/data/intweight.mtx, 117 bytes. -/
def intweightMtx : List Byte := str "%%MatrixMarket matrix coordinate integer symmetric\n5 5 5\n5 1 4\n4 1         +1\n4 2 asdf        \\ 3\n4 1 12\n2 1 ff  -10\n"

/-- tests/coo/data/weighted.mtx, 127 bytes. -/
def weightedMtx : List Byte := str "%%MatrixMarket matrix coordinate real symmetric\n5 2 6\n5 1 4.3333\n4 1      +0.00003454\n4 2 3\n4 1 1E10\n2 1 -0.04321\n3 1 -6.6e-10\n"

/-- tests/coo/data/example.graph, 36 bytes. -/
def exampleGraph : List Byte := str "10 15\n3 4\n5\n2\n1\n4 5 6 7\n3\n3 4\n4\n2\n1\n"

/-- tests/coo/data/clean.bin, 31 bytes. -/
def cleanBin : List Byte := [80, 73, 71, 79, 45, 67, 79, 79, 45, 118, 49, 1, 1, 6, 10, 10, 7, 0, 1, 2, 3, 4, 5, 2, 1, 2, 3, 4, 5, 0, 9]

/-- tests/csr/data/tiny.graph, 33 bytes. -/
def tinyGraph : List Byte := str "% sample graph file\n5 3\n3 2\n\n4\n\n\n"

/-- tests/csr/data/rect.graph, 208 bytes. -/
def rectGraph : List Byte := str "% this is a rectangular graph\n% header below is:\n% <num vertices> <num *edges*> <weight type>\n% vertices start at 1, and num edges does not count the sum of degrees\n2 7 0\n# just another comment\n1 3 5\n1 3 4 5\n"

/-- tests/csr/data/rect.mtx, 80 bytes. -/
def rectMtx : List Byte := str "%%MatrixMarket matrix coordinate real general\n2 5 7\n1 1\n1 3\n1 5\n2 1\n2 3\n2 4\n2 5\n"

/-- tests/csr/data/begin.el, 65 bytes. -/
def beginEl : List Byte := str "0 1\n0 2     # this line is important\n0 3\n3 7\n7 6\n7 5\n7 2\n5 6\n9 2\n"

/-- tests/csr/data/bigempty.mtx, 65 bytes. -/
def bigemptyMtx : List Byte := str "%%MatrixMarket matrix coordinate pattern general\n5000 5000 1\n4 4\n"

/-- tests/csr/data/dupedge.el, 90 bytes. -/
def dupedgeEl : List Byte := str "4 5 0.9\n6 8 0.8\n4 5 0.7\n2 3 0.6\n2 4 0.5\n2 5 0.4\n4 1 0.3\n0 1 0.2\n0 8 0.1\n5 2 -0.1\n3 3 -0.2\n"

/-- tests/csr/data/triangle.graph, 16 bytes. -/
def triangleGraph : List Byte := str "3 6\n1 2\n0 2\n0 1\n"

/-- tests/csr/data/base1.graph, 274 bytes. -/
def base1Graph : List Byte := str "% this is a symmetric graph\n% header below is:\n% <num vertices> <num *edges*> <weight type>\n% vertices start at 1, and num edges does not count the sum of degrees\n10 10 0\n# just another comment\n5 4 3   % vertex one's edges\n6\n1 4 5\n1 3 10  % vertex four\n1 3\n2\n8 9 10\n7\n7\n4 7\n"

/-- tests/csr/data/triangle-messy.graph, 185 bytes. -/
def triangleMessyGraph : List Byte := str "% comments 3 4 5\n# 11 22   \n        3 6 % the header <-\n1       2 % more\n0 2                 \n        0           1           \n                \n\n extra lines at the end are OK?\n f d sa\n"

/-- tests/csr/data/triangle-bad.graph, 213 bytes. -/
def triangleBadGraph : List Byte := str "% comments 3 4 5\n# 11 22   \n        3 6 % the header <-\n1       2 % more\n0 2                 \n        0           1           \n                \n\n extra lines at the end are OK?\n f d sa\n NO 2 numbers allowed after\n"

/-- tests/csr/data/triangle2m.graph, 22 bytes. -/
def triangle2mGraph : List Byte := str "3 3 0 0 0\n1 2\n0 2\n0 1\n"

/-- tests/tensor/data/noweight.tns, 167 bytes. -/
def noweightTns : List Byte := str "# Test file     from: http://frostt.io/tensors/file-formats.html\n# This is a comment\n1   1    1 1 # TEST TEST\n1 1 2 1 # Another comment\n2 2 2 1\n2 3 1 2\n# Test\n3 1 1 2\n"

/-- tests/tensor/data/ord1.tns, 52 bytes. -/
def ord1Tns : List Byte := str "19\n5\n7\n11\n10\n11\n13\n18\n14\n11\n9\n9\n3\n15\n11\n9\n17\n4\n6\n18\n"

/-- tests/tensor/data/test.tns, 148 bytes. -/
def testTns : List Byte := str "# Test file from: http://frostt.io/tensors/file-formats.html\n# This is a comment\n1 1 1 1 1.0\n1 1 2 1 2.0\n# TEST\n2 2 2 1 3.0\n2 3 1 2 4.0\n3 1 1 2 5.0\n"

end Pigo.Tests
