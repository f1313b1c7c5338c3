import Verif.Model.Dump
/-
The files the dictionary compilers write, which are compiled into the libraries.
-/
namespace Libmorph

/-- `ResolveRus::SaveTables`, lang-rus/libdict/tools/buildic/makerus.cpp:373-401 (mxTables.cpp, flexTree.cpp, mixTypes.cpp, classmap.cpp), and
`BuildMorph::CreateDict`, tools/buildmorph.h:159-172 (stemtree.cpp, lidstree.cpp): the texts.  Simplification: each image is handed over in one piece; how it is
divided does not matter (`C78_pieces`).  The table `mixTypes` is makerus.cpp:42-. -/
def rusLibrary (nspace mtab : List Byte) (st : RusState) : List (Option (List Byte)) :=
  let im := st.images mtab
  [imageFile rusLicense nspace (cText "mxTables") [im.mxTables], imageFile rusLicense nspace (cText "flexTree") [im.flexTree],
    imageFile rusLicense nspace (cText "mixTypes") [mixTypes], imageFile rusLicense nspace (cText "classmap") [im.classmap],
    imageFile rusLicense nspace (cText "stemtree") [im.stemtree], imageFile rusLicense nspace (cText "lidstree") [im.lidstree]]

/-- lang-eng/libdict/buildic/makeeng.cpp:198-209 (flexTree.cpp, classmap.cpp) and tools/buildmorph.h:159-172 (stemtree.cpp, lidstree.cpp). -/
def engLibrary (nspace : List Byte) (st : EngState) : List (Option (List Byte)) :=
  let im := st.images
  [imageFile engLicense nspace (cText "flexTree") [im.flexTree], imageFile engLicense nspace (cText "classmap") [im.classmap],
    imageFile engLicense nspace (cText "stemtree") [im.stemtree], imageFile engLicense nspace (cText "lidstree") [im.lidstree]]

end Libmorph
